import Verif.Proof.LockMal

/-!
# Lock-step runs of the multiplication triples and of the sacrifice
-/

namespace Verif

open Jmp MalAby3

variable {f : Bytes → List Bool} {α β : Type} {i : Party} {K V : Nat}

/-- The states after `k` bits have been drawn from every generator. -/
def afterDraw (k : Nat) (st : Party → JmpSt (idealPrg f)) (j : Party) : JmpSt (idealPrg f) := (st j).adv k

theorem sacrifice_b {n : Nat} {A A' : List (BitVec V)} (hA : A.length = n) (hA' : A'.length = n) (r : BitVec V)
    (st st' : Party → JmpSt (idealPrg f)) :
    (List.zipWith (fun x y => (x.mulConst r).sub y) (rnd i n A st i.prev) (rnd i n A' st' i.prev)).map (·.b) =
      List.zipWith (fun x y => x * r - y) A A' := by
  have h : ∀ (l l' : List (AShare V)), (List.zipWith (fun x y => (x.mulConst r).sub y) l l').map (·.b) =
      List.zipWith (fun x y => x * r - y) (l.map (·.b)) (l'.map (·.b)) := by
    intro l l'
    rw [List.map_zipWith, List.zipWith_map]
    rfl
  rw [h, rnd_prev_b hA, rnd_prev_b hA']

/-- The products computed by the party before `i` while a triple is made. -/
def tripleProds (i : Party) (n : Nat) (A B A' : List (BitVec V)) (st : Party → JmpSt (idealPrg f)) : List (BitVec V) :=
  mulLoc (rnd i n A st i.prev ++ rnd i n A' (afterDraw (V * n) (afterDraw (V * n) st)) i.prev)
    (rnd i n B (afterDraw (V * n) st) i.prev ++ rnd i n B (afterDraw (V * n) st) i.prev)

/-- The state in which the coin of a triple is tossed. -/
def coinSt (V n : Nat) (st : Party → JmpSt (idealPrg f)) : Party → JmpSt (idealPrg f) :=
  afterDraw (V * (n + n)) (afterDraw (V * n) (afterDraw (V * n) (afterDraw (V * n) st)))

theorem getMulTripleMany_lock (H : Hash) (hV : 40 ≤ V - K) {st : Bool → Party → JmpSt (idealPrg f)} (hst : Twin i st) {n : Nat}
    {A B A' Z : Bool → List (BitVec V)} {s : Bytes} {v cs : List (BitVec V)} (hA : ∀ w, (A w).length = n)
    (hB : ∀ w, (B w).length = n) (hA' : ∀ w, (A' w).length = n) (hZ : ∀ w, (Z w).length = n + n) (hs : s.length = 32)
    (hv : ∀ w, List.zipWith (fun x y => x * coinVal i V s (coinSt V n (st false)) - y) (A w) (A' w) = v)
    (hcs : ∀ w, maskVals (tripleProds i n (A w) (B w) (A' w) (st w))
      (words V (n + n) (afterDraw (V * n) (afterDraw (V * n) (afterDraw (V * n) (st w))) i.prev).tapeA) (Z w) = cs) :
    Lock i (fun w => tapesOf (A w) ++ (tapesOf (B w) ++ (tapesOf (A' w) ++ (tapesOf (Z w) ++ tapesOf s))))
      (fun _ j => getMulTripleMany H V K j n) st fun x t => Twin i t ∧ x false i = x true i ∧
        (∀ w, ∃ p q : List (BitVec K), p.length = n ∧ q.length = n ∧ Rels SharesOf p (fun j => (x w j).1) ∧
          Rels SharesOf q (fun j => (x w j).2.1) ∧ Rels SharesOf (List.zipWith (· * ·) p q) (fun j => (x w j).2.2)) ∧
        (∀ w, (x w i.prev).1.map (·.b) = (A w).map (fromVerif K)) ∧
        ∀ w, (x w i.prev).2.1.map (·.b) = (B w).map (fromVerif K) := by
  have hmap : ∀ l : List (AShare V), (l.map (·.fromVerif K)).map (·.b) = (l.map (·.b)).map (fromVerif K) := by
    intro l
    rw [List.map_map, List.map_map]
    rfl
  refine (Lock.full (Q := fun x _ => (∀ w, (x w i.prev).1.map (·.b) = (A w).map (fromVerif K)) ∧
        ∀ w, (x w i.prev).2.1.map (·.b) = (B w).map (fromVerif K)) ?_ hst rfl (R := fun _ x => ∃ p q : List (BitVec K),
          p.length = n ∧ q.length = n ∧ Rels SharesOf p (fun j => (x j).1) ∧
          Rels SharesOf q (fun j => (x j).2.1) ∧ Rels SharesOf (List.zipWith (· * ·) p q) (fun j => (x j).2.2))
      fun w t hJ => getMulTripleMany_wp hV n hJ).mono fun x t h => ⟨h.2.1, h.2.2.1, h.2.2.2, h.1⟩
  unfold getMulTripleMany
  refine Lock.ite_neg (fun _ _ => by omega) ?_
  refine Lock.bind ((genRandMany_lock hA hst).mono ?_)
  rintro a st1 ⟨ea, e1, hst1, ia, ra⟩
  refine Lock.bind ((genRandMany_lock hB hst1).mono ?_)
  rintro b st2 ⟨eb, e2, hst2, ib, rb⟩
  refine Lock.bind ((genRandMany_lock hA' hst2).mono ?_)
  rintro a' st3 ⟨ea', e3, hst3, ia', ra'⟩
  choose xA lxA ra using ra
  choose xB lxB rb using rb
  choose xA' lxA' ra' using ra'
  have la : ∀ w j, (a w j).length = n := fun w j => by rw [(ra w).length, lxA]
  have lb : ∀ w j, (b w j).length = n := fun w j => by rw [(rb w).length, lxB]
  have la' : ∀ w j, (a' w j).length = n := fun w j => by rw [(ra' w).length, lxA']
  refine Lock.bind ((Lock.full (abyMulMany_lock (m := n + n) (cs := cs) (a := fun w j => a w j ++ a' w j)
    (b := fun w j => b w j ++ b w j) (fun w j => by simp [la, la', lb]) hZ fun w => ?_) hst3 (by rw [ia, ib, ia'])
    (R := fun w c => Rels SharesOf (List.zipWith (· * ·) (xA w ++ xA' w) (xB w ++ xB w)) c) fun w t hJ =>
      abyMulMany_wp hJ ((ra w).append (ra' w)) ((rb w).append (rb w)) (by simp [lxA, lxA', lxB])).mono ?_)
  · subst ea eb ea' e1 e2 e3
    exact hcs w
  rintro c st4 ⟨e4, hst4, ic, rc⟩
  have h0 : ∀ w, Rels SharesOf (List.zipWith (· * ·) (xA w) (xB w)) fun j => (c w j).take n := fun w => by
    have := rc w
    rw [List.zipWith_append (by simp [lxA, lxB])] at this
    have := this.take n
    rwa [List.take_left' (by simp [lxA, lxB])] at this
  have h1 : ∀ w, Rels SharesOf (List.zipWith (· * ·) (xA' w) (xB w)) fun j => (c w j).drop n := fun w => by
    have := rc w
    rw [List.zipWith_append (by simp [lxA, lxB])] at this
    have := this.drop n
    rwa [List.drop_left' (by simp [lxA, lxB])] at this
  refine Lock.bind_last ((coinElem_lock V hst4 hs).mono ?_)
  rintro r st5 ⟨hst5, hr⟩
  obtain rfl : r = fun _ _ => coinVal i V s (st4 false) := funext fun w => funext fun j => hr w j
  refine Lock.bind' ((reconstructMany_lock hst5 (fun w => sacrificeOpen_rel _ (ra w) (ra' w)) (by rw [ia, ia']) ?_).mono ?_)
  · subst ea eb ea' e1 e2 e3 e4
    rw [sacrifice_b (hA _) (hA' _), sacrifice_b (hA _) (hA' _)]
    exact (hv false).trans (hv true).symm
  rintro o st6 ⟨hst6, io, ho⟩
  refine Lock.bind' ((jmpVerify_lock H hst6).mono fun _ st7 hst7 => ?_)
  refine Lock.bind' (Lock.net (Talk.hashZero H (n := n) (fun w => ?_) (by rw [ib, ic, io])) ?_)
  · have := tripleCheck_rel (coinVal i V s (st4 false)) (by rw [lxA, lxB]) (by rw [lxA', lxB]) (rb w) (h0 w) (h1 w)
    rw [lxB] at this
    have e : ∀ j, o w j = _ := ho w
    simp only [e]
    exact this
  refine Lock.pure (a := fun w j => ((a w j).map (·.fromVerif K), (b w j).map (·.fromVerif K),
    ((c w j).take n).map (·.fromVerif K))) (Q := fun x _ => (∀ w, (x w i.prev).1.map (·.b) = (A w).map (fromVerif K)) ∧
        ∀ w, (x w i.prev).2.1.map (·.b) = (B w).map (fromVerif K)) ⟨fun w => ?_, fun w => ?_⟩
  · show ((a w i.prev).map (·.fromVerif K)).map (·.b) = _
    subst ea
    rw [hmap, rnd_prev_b (hA w)]
  · show ((b w i.prev).map (·.fromVerif K)).map (·.b) = _
    subst eb
    rw [hmap, rnd_prev_b (hB w)]

end Verif
