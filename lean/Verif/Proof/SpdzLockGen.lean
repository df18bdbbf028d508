import Verif.Proof.SpdzLockTriple

/-!
# Lock-step runs of the generation of AND triples
-/

namespace Verif

open Jmp Spdz

variable {f : Bytes → List Bool} {V K : Nat} {α β : Type} {i : Party} {H : Hash}

theorem abyAndMany_lock {r : Bool → BitVec V} {k m : Nat} {st : Bool → Party → SpdzSt (idealPrg f) V} {a b : Bool → Party → List (AShare K)}
    {xs ys : Bool → List (BitVec K)} (hst : TwinS i r k st) (ha : ∀ w, Rels BinSharesOf (xs w) (a w)) (hb : ∀ w, Rels BinSharesOf (ys w) (b w))
    (lx : ∀ w, (xs w).length = m) (ly : ∀ w, (ys w).length = m) (ia : a false i = a true i) (ib : b false i = b true i)
    {Z : Bool → List (BitVec K)} {cs : List (BitVec K)} (hZ : ∀ w, (Z w).length = m)
    (hcs : ∀ w, maskBits (((a w i.prev).zip (b w i.prev)).map fun p => (p.1.andLocal p.2).a) (words K m (st w i.prev).jmp.tapeA) (Z w) = cs) :
    LockS i (fun w => tapesOf (Z w)) (fun w j => (viaAby (Aby3.andMany j (a w j) (b w j)) : Proto (SpdzSt (idealPrg f) V) _)) st fun c t =>
      (t = fun w j => (st w j).adv (K * m)) ∧ c false i = c true i ∧ ∀ w, Rels BinSharesOf (List.zipWith (· &&& ·) (xs w) (ys w)) (c w) := by
  have la : ∀ w j, (a w j).length = m := fun w j => by rw [(ha w).length, lx]
  have lb : ∀ w j, (b w j).length = m := fun w j => by rw [(hb w).length, ly]
  refine LockS.results (Q := fun _ t => t = fun w j => (st w j).adv (K * m))
    (R := fun w c => Rels BinSharesOf (List.zipWith (· &&& ·) (xs w) (ys w)) c) ?_ hst (by simp only [ia, ib]) fun w t hJ => ?_
  · refine LockS.congr (q := fun w j => viaAby (Aby3.andLoop ((a w j).zip (b w j))) >>= fun x =>
      Proto.net (sendSliceAndReceiveIter j x) >>= fun y => Pure.pure (List.zipWith AShare.mk x y)) (fun w j => ?_) ?_
    · unfold Aby3.andMany
      rw [if_neg (by rw [la, lb]; simp)]
      unfold viaAby
      simp only [viaPrf_bind, viaPrf_net, viaPrf_pure, viaJmp_bind, viaJmp_pure, viaJmp_net]
    · let h : Bool → Party → List (BitVec K) := fun w j => ((a w j).zip (b w j)).map fun p => (p.1.andLocal p.2).a
      let x : Bool → Party → List (BitVec K) := fun w j => maskBits (h w j) (drawA i m (Z w) (fun j => (st w j).jmp) j)
        (drawB i m (Z w) (fun j => (st w j).jmp) j)
      have lz : ∀ w j, ((a w j).zip (b w j)).length = m := fun w j => by rw [List.length_zip, la, lb, Nat.min_self]
      have lx : ∀ w j, (x w j).length = m := fun w j => by
        simp only [x, h, maskBits, List.length_zipWith, List.length_map, lz, drawA_length (hZ w), drawB_length (hZ w), Nat.min_self]
      have hx : ∀ w, x w i.prev = cs := fun w => by
        show maskBits _ _ _ = _
        rw [drawA, drawB, if_neg ((by decide : ∀ c : Party, c.prev ≠ c.next) i), if_pos rfl]
        exact hcs w
      refine LockS.bind_last (LockS.loc (a := x) (t := fun w j => (st w j).adv (K * m)) (fun w rest j P => ?_) ?_)
      · rw [← tapeS_adv (u := tapesOf (Z w)) (by rw [tapesOf_length, hZ])]
        refine viaJmp_ret (t := JmpSt.adv (K * m) _) ?_
        show viaPrf (Aby3.andLoop ((a w j).zip (b w j))) (tapeIn i (tapesOf (Z w) ++ rest) (fun j => (st w j).jmp) j) = _
        rw [andLoop_eq, lz, drawA_eq (hZ w), drawB_eq (hZ w)]
        rfl
      · refine LockS.bind' (LockS.net (Talk.iter (i := i) (x := x) (fun w j => by rw [lx, lx]) (by rw [hx, hx])) ?_)
        exact LockS.pure (a := fun w j => List.zipWith AShare.mk (x w j) (x w j.prev)) rfl
  · exact (viaAby_wp' hJ fun _ hJ => Aby3.andMany_wp (v := 0) hJ (ha w) (hb w) (by rw [lx, ly])).mono fun _ _ h => h.1

theorem genRandMany_lockS {r : Bool → BitVec V} {k m : Nat} {st : Bool → Party → SpdzSt (idealPrg f) V} (hst : TwinS i r k st)
    {A : Bool → List (BitVec K)} (hA : ∀ w, (A w).length = m) :
    LockS i (fun w => tapesOf (A w)) (fun _ _ => (viaJmp (genRandMany K m) : Proto (SpdzSt (idealPrg f) V) _)) st fun a t =>
      (a = fun w => rnd i m (A w) fun j => (st w j).jmp) ∧ (t = fun w j => (st w j).adv (K * m)) ∧ a false i = a true i ∧
        ∃ xs : Bool → List (BitVec K), (∀ w, (xs w).length = m) ∧ ∀ w, Rels BinSharesOf (xs w) (a w) := by
  refine LockS.zoom (genRandMany_lock hA hst.jmp) fun a t h => ⟨h.1, ?_, h.2.2.2.1, ?_⟩
  · rw [h.2.1]
    rfl
  · have := h.2.2.2.2
    choose xs h1 h2 using this
    choose ys h3 h4 using fun w => (h2 w).toBin
    exact ⟨ys, fun w => by rw [h3, h1], h4⟩

/-- The unknown tape of the AND gates: the messages to party `i` become `cs`. -/
def genZ (i : Party) (m : Nat) (A B cs : List (BitVec 128)) (st : Party → SpdzSt (idealPrg f) V) : List (BitVec 128) :=
  maskBits (((rnd i m A (fun j => (st j).jmp) i.prev).zip (rnd i m B (fun j => ((st j).adv (128 * m)).jmp) i.prev)).map
    fun p => (p.1.andLocal p.2).a) (words 128 m (((st i.prev).adv (128 * m)).adv (128 * m)).jmp.tapeA) cs

theorem genZ_length {m : Nat} {A B cs : List (BitVec 128)} (hA : A.length = m) (hB : B.length = m) (hc : cs.length = m)
    (st : Party → SpdzSt (idealPrg f) V) : (genZ i m A B cs st).length = m := by
  simp only [genZ, maskBits, List.length_zipWith, List.length_map, List.length_zip, rnd_length hA, rnd_length hB, words_length, hc, Nat.min_self]

theorem genZ_mask {m : Nat} {A B cs : List (BitVec 128)} (hA : A.length = m) (hB : B.length = m) (hc : cs.length = m)
    (st : Party → SpdzSt (idealPrg f) V) :
    maskBits (((rnd i m A (fun j => (st j).jmp) i.prev).zip (rnd i m B (fun j => ((st j).adv (128 * m)).jmp) i.prev)).map
      fun p => (p.1.andLocal p.2).a) (words 128 m (((st i.prev).adv (128 * m)).adv (128 * m)).jmp.tapeA) (genZ i m A B cs st) = cs := by
  have hl : ((((rnd i m A (fun j => (st j).jmp) i.prev).zip (rnd i m B (fun j => ((st j).adv (128 * m)).jmp) i.prev))).map
      fun p => (p.1.andLocal p.2).a).length = m := by
    rw [List.length_map, List.length_zip, rnd_length hA, rnd_length hB, Nat.min_self]
  exact maskBits_self _ _ _ (by rw [words_length, hl]) (by rw [hc, hl])

/-- Bits drawn for `m` triples and a coin. -/
def genBits (m : Nat) : Nat := 128 * m + (128 * m + (128 * m + 256))

/-- The seed of the shuffle during the generation. -/
def genSeedOf (i : Party) (m : Nat) (s : Bytes) (st : Party → SpdzSt (idealPrg f) V) : List Bool :=
  shufSeed i s fun j => (((st j).adv (128 * m)).adv (128 * m)).adv (128 * m)

theorem near_adv3 {st : Bool → Party → SpdzSt (idealPrg f) V} (x : Nat) :
    Near (x + x + x) st fun w j => (((st w j).adv x).adv x).adv x := fun w j => by
  have e : (((st w j).adv x).adv x).adv x = (st w j).adv (x + x + x) := by rw [SpdzSt.adv_adv, SpdzSt.adv_adv, Nat.add_assoc]
  show (((st w j).adv x).adv x).adv x = { st w j with jmp := ((((st w j).adv x).adv x).adv x).jmp } ∧
    ((((st w j).adv x).adv x).adv x).jmp.prf = _
  rw [e]
  exact ⟨rfl, rfl⟩

theorem generateTriples_lock {r : Bool → BitVec V} {k num n : Nat} (hn : max num minTriples = n) {st : Bool → Party → SpdzSt (idealPrg f) V}
    (hst : TwinS i r k st) {A B : Bool → List (BitVec 128)} {cs : List (BitVec 128)} {s : Bytes}
    (hA : ∀ w, (A w).length = 2 * n + 1) (hB : ∀ w, (B w).length = 2 * n + 1) (hc : cs.length = 2 * n + 1) (hs : s.length = 32)
    {va vb : List (BitVec 128)} {la lb : BitVec 128} (lva : va.length = n) (lvb : vb.length = n)
    (tA : ∀ w, shuf f (n + 1) (genSeedOf i (2 * n + 1) s (st false)) ((A w).drop n) = List.zipWith (· ^^^ ·) ((A w).take n) va ++ [la])
    (tB : ∀ w, shuf f (n + 1) (genSeedOf i (2 * n + 1) s (st false)) ((B w).drop n) = List.zipWith (· ^^^ ·) ((B w).take n) vb ++ [lb]) :
    LockS i (fun w => tapesOf (A w) ++ (tapesOf (B w) ++ (tapesOf (genZ i (2 * n + 1) (A w) (B w) cs (st w)) ++ tapesOf s)))
      (fun _ j => (generateTriples H j num : Proto (SpdzSt (idealPrg f) V) _)) st fun o t =>
      (t = fun w j => (st w j).settle (genBits (2 * n + 1))) ∧ o false i = o true i ∧
      (∀ w, TriplesOf n (fun j => (o w j).a) (fun j => (o w j).b) (fun j => (o w j).c)) ∧ (∀ w j, (o w j).bitsInLast = 128) ∧
      (∀ w, thirds i (fun j => (o w j).a) = (A w).take n) ∧ ∀ w, thirds i (fun j => (o w j).b) = (B w).take n := by
  refine LockS.congr (q := fun w j => do
    let a ← viaJmp (Jmp.genRandMany 128 (2 * n + 1))
    let b ← viaJmp (Jmp.genRandMany 128 (2 * n + 1))
    let c ← viaAby (Aby3.andMany j a b)
    genRest H j n a b c) (fun w j => by rw [← hn]; rfl) ?_
  refine LockS.bind ((genRandMany_lockS hst hA).mono ?_)
  rintro a _ ⟨ha, rfl, ia, xs, lx, hx⟩
  have ht1 : TwinS i r k fun w j => (st w j).adv (128 * (2 * n + 1)) := hst.adv
  refine LockS.bind ((genRandMany_lockS ht1 hB).mono ?_)
  rintro b _ ⟨hb, rfl, ib, ys, ly, hy⟩
  have ht2 : TwinS i r k fun w j => ((st w j).adv (128 * (2 * n + 1))).adv (128 * (2 * n + 1)) := ht1.adv
  refine LockS.bind ((abyAndMany_lock (cs := cs) ht2 hx hy lx ly ia ib (fun w => genZ_length (hA w) (hB w) hc _) fun w => ?_).mono ?_)
  · rw [ha, hb]
    exact genZ_mask (hA w) (hB w) hc (st w)
  rintro c _ ⟨rfl, ic, hz⟩
  have ea : ∀ w, thirds i (a w) = A w := fun w => by rw [ha]; exact rnd_prev_b (hA w) _
  have eb : ∀ w, thirds i (b w) = B w := fun w => by rw [hb]; exact rnd_prev_b (hB w) _
  have hT : ∀ w, TriplesOf (2 * n + 1) (a w) (b w) (c w) := fun w => ⟨xs w, ys w, lx w, ly w, hx w, hy w, hz w⟩
  refine (genRest_lock (H := H) (la := la) (lb := lb) ht2.adv hT ia ib ic hs lva lvb (fun w => ?_) fun w => ?_).mono ?_
  · rw [ea]
    exact tA w
  · rw [eb]
    exact tB w
  · rintro o _ ⟨rfl, rfl⟩
    refine ⟨?_, ?_, fun w => ?_, fun _ _ => rfl, fun w => ?_, fun w => ?_⟩
    · funext w j
      have e : ∀ x : Nat, x + x + x + 256 = x + (x + (x + 256)) := fun x => by omega
      exact ((near_adv3 (st := st) (128 * (2 * n + 1))).settle w j).trans (congrArg (fun k => (st w j).settle k) (e _))
    · simp only [ia, ib, ic]
    · exact triples_take (m := n) (hT w) (by omega)
    · rw [← ea w]; simp [thirds]
    · rw [← eb w]; simp [thirds]

end Verif
