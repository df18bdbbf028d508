import Verif.Proof.LockDot
import Verif.Proof.LockQuery

/-!
# Couplings of the single gates of the malicious backend
-/

namespace Verif

open Jmp MalAby3

variable {f : Bytes → List Bool} {i : Party} {K V : Nat}

/-- The bits of a word. -/
def unpack1 (x : BitVec K) : List (BitVec 1) := (List.range K).map fun k => bitOf (x.getLsbD k)

theorem unpack1_length (x : BitVec K) : (unpack1 x).length = K := by simp [unpack1]

theorem xor_b1 {x : AShare K} {P : List (AShare 1)} {y : List (BitVec 1)} (hy : y.length = K)
    (hP : P.map (·.b) = List.zipWith (· ^^^ ·) (unpack1 x.b) y) : (x.xor (packExact K P)).b = packWord K y := by
  show x.b ^^^ packWord K (P.map (·.b)) = _
  rw [hP, packWord_xor _ _ (by rw [unpack1_length, hy]) (le_of_eq hy)]
  unfold unpack1
  rw [packWord_bits, ← BitVec.xor_assoc, BitVec.xor_self, BitVec.zero_xor]

theorem malAnd_cpl (H : Hash) {a b : Bool → Party → AShare K} {x y : Bool → BitVec K}
    (ha : ∀ w, BinSharesOf (x w) (a w)) (hb : ∀ w, BinSharesOf (y w) (b w)) (ia : a false i = a true i) (ib : b false i = b true i) :
    Cpl (f := f) i (tripleBits (verifWidth 1) K) (fun w j => MalAby3.and H j (a w j) (b w j)) fun c =>
      c false i = c true i ∧ ∀ w, BinSharesOf (x w &&& y w) (c w) := by
  refine Cpl.full (Q := fun _ => True) ?_ (by simp only [ia, ib]) fun w s hJ => and_wp hJ (ha w) (hb w)
  intro st hst
  let sh : (Bool → Party → AShare K) → Bool → List (BitVec (verifWidth 1)) := fun a w =>
    (unpack1 (a w i.prev).b).map (toVerif (verifWidth 1))
  have ls : ∀ a w, (sh a w).length = K := fun a w => by
    show ((unpack1 (a w i.prev).b).map (toVerif (verifWidth 1))).length = _
    rw [List.length_map, unpack1_length]
  refine ⟨fun w u => tripleTape i (verifWidth 1) K (sh a w) (sh b w) (st false) (st w) u,
    fun w u _ => tripleTape_length (ls a w) (ls b w) _ _ _, fun w u u' hu hu' h => tripleTape_inj (ls a w) (ls b w) _ _ hu hu' h, fun u hu => ?_⟩
  refine (Lock.full (Q := fun _ _ => True) ?_ hst (by simp only [ia, ib]) (R := fun _ _ => True) fun w t hJ =>
    (and_wp hJ (ha w) (hb w)).mono fun _ _ h => ⟨trivial, h.2⟩).mono fun _ _ h => ⟨trivial, h.2.1⟩
  unfold MalAby3.and
  refine Lock.bind_last ((getMulTripleMany_tape H verifBit hst (ls a) (ls b) u).mono ?_)
  rintro z t ⟨ht, iz, hz, hA, hB⟩
  choose p q lp lq hp hq hpq using hz
  have hp' := fun w => packExact_rel (K := K) ((hp w).imp fun _ _ h => h.bin) (le_of_eq (lp w))
  have hq' := fun w => packExact_rel (K := K) ((hq w).imp fun _ _ h => h.bin) (le_of_eq (lq w))
  have hVV : 1 ≤ verifWidth 1 := by decide
  refine Lock.bind' ((reconstructBinaryMany_lock (ss := fun w j => [(a w j).xor (packExact K (z w j).1), (b w j).xor (packExact K (z w j).2.1)]) ht
    (fun w => .cons (b := fun j => (a w j).xor (packExact K (z w j).1)) ((ha w).xor (hp' w)) (.singleton ((hb w).xor (hq' w))))
    (by simp only [ia, ib, iz]) ?_).mono ?_)
  · have e1 : ∀ w, (z w i.prev).1.map (·.b) = List.zipWith (· ^^^ ·) (unpack1 (a w i.prev).b)
        ((words (verifWidth 1) K u).map (fromVerif 1)) := fun w => by
      rw [hA, fromVerif_bits hVV (unpack1_length _) (words_length _ _ _)]
    have e2 : ∀ w, (z w i.prev).2.1.map (·.b) = List.zipWith (· ^^^ ·) (unpack1 (b w i.prev).b)
        ((words (verifWidth 1) K (u.drop (verifWidth 1 * K))).map (fromVerif 1)) := fun w => by
      rw [hB, fromVerif_bits hVV (unpack1_length _) (words_length _ _ _)]
    simp only [List.map_cons, List.map_nil]
    rw [xor_b1 (by simp) (e1 false), xor_b1 (by simp) (e2 false), xor_b1 (by simp) (e1 true), xor_b1 (by simp) (e2 true)]
  · rintro uv t' ⟨-, -, huv⟩
    obtain rfl := funext fun w => funext fun j => huv w j
    refine Lock.bind' (Lock.lift (a := fun w _ => _) (fun w j => rfl) ?_)
    refine Lock.bind' (Lock.lift (a := fun w _ => _) (fun w j => rfl) ?_)
    exact Lock.pure (Q := fun _ _ => True) (a := fun w j => _) trivial

/-- Shares of some value in each world, with the same shares of party `i`. -/
def TwoB (i : Party) (p : Bool → Party → AShare K) : Prop := (∀ w, ∃ x, BinSharesOf x (p w)) ∧ p false i = p true i

namespace TwoB

variable {a b : Bool → Party → AShare K}

theorem xor (ha : TwoB i a) (hb : TwoB i b) : TwoB i fun w j => (a w j).xor (b w j) := by
  refine ⟨fun w => ?_, by simp only [ha.2, hb.2]⟩
  obtain ⟨x, hx⟩ := ha.1 w
  obtain ⟨y, hy⟩ := hb.1 w
  exact ⟨_, hx.xor hy⟩

theorem shl (ha : TwoB i a) (k : Nat) : TwoB i fun w j => (a w j).shl k := by
  refine ⟨fun w => ?_, by simp only [ha.2]⟩
  obtain ⟨x, hx⟩ := ha.1 w
  exact ⟨_, hx.shl k⟩

end TwoB

theorem malAnd_two (H : Hash) {a b : Bool → Party → AShare K} (ha : TwoB i a) (hb : TwoB i b) :
    Cpl (f := f) i (tripleBits (verifWidth 1) K) (fun w j => MalAby3.and H j (a w j) (b w j)) (TwoB i) := by
  obtain ⟨hx, ia⟩ := ha
  obtain ⟨hy, ib⟩ := hb
  choose x hx using hx
  choose y hy using hy
  exact (malAnd_cpl H hx hy ia ib).mono fun c h => ⟨fun w => ⟨_, h.2 w⟩, h.1⟩

theorem malOr_two (H : Hash) {a b : Bool → Party → AShare K} (ha : TwoB i a) (hb : TwoB i b) :
    Cpl (f := f) i (tripleBits (verifWidth 1) K + 0) (fun w j => (binOps (idealPrg f) H K j).or (a w j) (b w j)) (TwoB i) := by
  unfold BinOps.or
  refine Cpl.bind (malAnd_two H ha hb) fun c hc => ?_
  exact Cpl.pure ((ha.xor hb).xor hc)

theorem malKogge_two (H : Hash) (hK : K ≠ 0) : ∀ (r k : Nat) {p g : Bool → Party → AShare K}, TwoB i p → TwoB i g →
    Cpl (f := f) i (r * tripleBits (verifWidth 1) (K * 2))
      (fun w j => (binOps (idealPrg f) H K j).koggeLoop r k (p w j) (g w j)) fun c => TwoB i fun w j => (c w j).2 := by
  intro r
  induction r with
  | zero =>
    intro k p g _ hg
    rw [Nat.zero_mul]
    exact Cpl.pure (a := fun w j => (p w j, g w j)) hg
  | succ r ih =>
    intro k p g hp hg
    unfold BinOps.koggeLoop
    rw [Nat.succ_mul, Nat.add_comm]
    have pair : ∀ {a b : Bool → Party → AShare K}, TwoB i a → TwoB i b → Two i BinSharesOf 2 fun w j => [a w j, b w j] := by
      intro a b ha hb
      refine ⟨fun w => ?_, by simp only [ha.2, hb.2]⟩
      obtain ⟨x, hx⟩ := ha.1 w
      obtain ⟨y, hy⟩ := hb.1 w
      exact ⟨[x, y], rfl, .cons (b := a w) hx (.singleton hy)⟩
    refine Cpl.bind (andMany_two hK (pair hp hp) (pair (hg.shl (2 ^ k)) (hp.shl (2 ^ k)))) fun c hc => ?_
    have sel : ∀ m, m < 2 → ∃ x : Bool → Party → AShare K, (∀ w j, idx (c w j) m = .ok (x w j)) ∧ TwoB i x := by
      intro m hm
      have : ∀ w, ∃ x : Party → AShare K, (∀ j, idx (c w j) m = .ok (x j)) ∧ ∃ v, BinSharesOf v x := by
        intro w
        obtain ⟨xs, hl, hr⟩ := hc.1 w
        obtain ⟨x, hx, e⟩ := hr.idx (n := m) (x := xs[m]'(by omega)) (by simp)
        exact ⟨x, e, _, hx⟩
      choose x hx hv using this
      refine ⟨x, hx, hv, ?_⟩
      have h1 := hx false i
      rw [hc.2, hx true i] at h1
      injection h1 with h1
      exact h1.symm
    obtain ⟨x1, e1, h1⟩ := sel 1 (by omega)
    obtain ⟨x0, e0, h0⟩ := sel 0 (by omega)
    refine Cpl.bind' (Cpl.lift (Q := (· = x1)) e1 rfl) ?_
    rintro _ rfl
    refine Cpl.bind' (Cpl.lift (Q := (· = x0)) e0 rfl) ?_
    rintro _ rfl
    exact ih (k + 1) h1 (hg.xor h0)

/-- The number of bits drawn by `get_msb`. -/
def malMsbBits (K : Nat) : Nat :=
  tripleBits (verifWidth 1) K + (tripleBits (verifWidth 1) K + (ceilLog2 K * tripleBits (verifWidth 1) (K * 2) + 0))

theorem malGetMsb_two (H : Hash) (hK : K ≠ 0) {a : Bool → Party → AShare K} {x : Bool → BitVec K} (ha : ∀ w, SharesOf (x w) (a w))
    (ia : a false i = a true i) :
    Cpl (f := f) i (malMsbBits K) (fun w j => MalAby3.getMsb H j (a w j)) (TwoB i) := by
  unfold MalAby3.getMsb a2b BinOps.binaryAdd3
  simp only [bind_assoc, pure_bind]
  have h1 : TwoB i fun w j => (Aby3.a2bPre j (a w j)).1 := ⟨fun w => ⟨_, (Aby3.a2bPre_rel (ha w)).1⟩, by simp only [ia]⟩
  have h2 : TwoB i fun w j => (Aby3.a2bPre j (a w j)).2.1 := ⟨fun w => ⟨_, (Aby3.a2bPre_rel (ha w)).2.1⟩, by simp only [ia]⟩
  have h3 : TwoB i fun w j => (Aby3.a2bPre j (a w j)).2.2 := ⟨fun w => ⟨_, (Aby3.a2bPre_rel (ha w)).2.2⟩, by simp only [ia]⟩
  refine Cpl.bind (malAnd_two H (h1.xor h3) (h2.xor h3)) fun c hc => ?_
  refine Cpl.bind (malAnd_two H (h1.xor (h2.xor h3)) ((hc.xor h3).shl 1)) fun g hg => ?_
  refine Cpl.bind (malKogge_two H hK _ _ ((h1.xor (h2.xor h3)).xor ((hc.xor h3).shl 1)) hg) fun z hz => ?_
  have := ((h1.xor (h2.xor h3)).xor ((hc.xor h3).shl 1)).xor (hz.shl 1)
  refine Cpl.pure (a := fun w j => AShare.getMsb _) ⟨fun w => ?_, ?_⟩
  · obtain ⟨y, hy⟩ := this.1 w
    exact ⟨_, Aby3.getMsb_rel (by omega) hy⟩
  · exact congrArg AShare.getMsb this.2

/-! ## The dot product -/

/-- The body of `dotSacrifice`. -/
def dotBody1 (H : Hash) (V K : Nat) (me : Party) (n : Nat) (av bv : List (AShare V)) : Proto (JmpSt (idealPrg f)) (AShare K) := do
  let a' ← genRandMany V n
  let cs ← abyDotMany me [av, a'] [bv, bv]
  let c0 ← Proto.lift (idx cs 0)
  let c1 ← Proto.lift (idx cs 1)
  let r ← coinElem V me
  let v ← reconstructMany me (List.zipWith (fun x y => (x.mulConst r).sub y) av a')
  jmpVerify H me
  Proto.net (hashZeroVerify H me [dotCheckAcc ((c0.neg.mulConst r).add c1) (v.zip bv)])
  pure (c0.fromVerif K)

theorem rndRows_one {n : Nat} {A : List (BitVec V)} (hA : A.length = n) (st : Party → JmpSt (idealPrg f)) (j : Party) :
    rndRows i [n] A st j = [rnd i n A st j] := by
  show [(rnd i n A st j).take n] = _
  rw [List.take_of_length_le (le_of_eq (rnd_length hA st j))]

theorem idx_same {S : BitVec V → (Party → AShare V) → Prop} {m k : Nat} {c : Bool → Party → List (AShare V)} {v : Bool → List (BitVec V)}
    (hc : ∀ w, Rels S (v w) (c w)) (ic : c false i = c true i) (hl : ∀ w, (v w).length = m) (hk : k < m) :
    ∃ x : Bool → Party → AShare V, (∀ w j, idx (c w j) k = .ok (x w j)) ∧ x false i = x true i ∧
      ∀ w, S ((v w)[k]'(by rw [hl]; exact hk)) (x w) := by
  have h : ∀ w, ∃ x, S ((v w)[k]'(by rw [hl]; exact hk)) x ∧ ∀ j, idx (c w j) k = .ok (x j) := fun w =>
    (hc w).idx (n := k) (by simp)
  choose x hx e using h
  refine ⟨x, e, ?_, hx⟩
  have h1 := e false i
  rw [ic, e true i] at h1
  injection h1 with h1
  exact h1.symm

theorem dotBody1_lock (H : Hash) {st : Bool → Party → JmpSt (idealPrg f)} (hst : Twin i st) {n : Nat}
    {A' Z : Bool → List (BitVec V)} {s : Bytes} {v cs : List (BitVec V)} (hA' : ∀ w, (A' w).length = n)
    (hZ : ∀ w, (Z w).length = 2) (hs : s.length = 32)
    {av bv : Bool → Party → List (AShare V)} {X Y : Bool → List (BitVec V)}
    (ha : ∀ w, Rels SharesOf (X w) (av w)) (hb : ∀ w, Rels SharesOf (Y w) (bv w))
    (hX : ∀ w, (X w).length = n) (hY : ∀ w, (Y w).length = n) (ia : av false i = av true i) (ib : bv false i = bv true i)
    (hv : ∀ w, List.zipWith (fun x y => x * coinVal i V s (dotCoinSt V [n] (st false)) - y) ((av w i.prev).map (·.b)) (A' w) = v)
    (hcs : ∀ w, maskVals (dotLoc [av w i.prev, rnd i n (A' w) (st w) i.prev] [bv w i.prev, bv w i.prev])
      (words V 2 (afterDraw (V * n) (st w) i.prev).tapeA) (Z w) = cs) :
    Lock i (fun w => tapesOf (A' w) ++ (tapesOf (Z w) ++ tapesOf s))
      (fun w j => dotBody1 H V K j n (av w j) (bv w j)) st fun _ _ => True := by
  have la : ∀ w j, (av w j).length = n := fun w j => by rw [(ha w).length, hX]
  have lb : ∀ w j, (bv w j).length = n := fun w j => by rw [(hb w).length, hY]
  unfold dotBody1
  refine Lock.bind ((genRandMany_lock hA' hst).mono ?_)
  rintro a' st1 ⟨ea, e1, hst1, ia', ra⟩
  choose xA lxA ra using ra
  have lr : ∀ w j, (a' w j).length = n := fun w j => by rw [(ra w).length, lxA]
  refine Lock.bind ((Lock.full (abyDotMany_lock (m := 2) (cs := cs) (a := fun w j => [av w j, a' w j])
    (b := fun w j => [bv w j, bv w j]) (fun w j => rfl) (fun w j => rfl) (fun w j p hp => ?_) hZ fun w => ?_) hst1 (by simp only [ia, ib, ia'])
    (R := fun w c => Rels SharesOf (List.zipWith (fun xs ys => (List.zipWith (· * ·) xs ys).sum) [X w, xA w] [Y w, Y w]) c)
      fun w t hJ => abyDotMany_wp hJ (.cons (b := av w) (ha w) (.singleton (ra w))) (.cons (b := bv w) (hb w) (.singleton (hb w)))
        (.cons (by rw [hX, hY]) (.cons (by rw [lxA, hY]) .nil))).mono ?_)
  · simp only [List.zip_cons_cons, List.zip_nil_right, List.mem_cons, List.not_mem_nil, or_false] at hp
    rcases hp with rfl | rfl
    · simp only [la, lb]
    · simp only [lr, lb]
  · subst ea e1
    exact hcs w
  rintro c st2 ⟨e2, hst2, ic, rc⟩
  obtain ⟨c0, ec0, ic0, hc0⟩ := idx_same (m := 2) (k := 0) rc ic (fun _ => rfl) (by omega)
  obtain ⟨c1, ec1, ic1, hc1⟩ := idx_same (m := 2) (k := 1) rc ic (fun _ => rfl) (by omega)
  refine Lock.bind' (Lock.lift (a := c0) ec0 ?_)
  refine Lock.bind' (Lock.lift (a := c1) ec1 ?_)
  refine Lock.bind_last ((coinElem_lock V hst2 hs).mono ?_)
  rintro r st3 ⟨hst3, hr⟩
  obtain rfl : r = fun _ _ => coinVal i V s (st2 false) := funext fun w => funext fun j => hr w j
  refine Lock.bind' ((reconstructMany_lock hst3 (fun w => sacrificeOpen_rel _ (ha w) (ra w)) (by simp only [ia, ia']) ?_).mono ?_)
  · have e : ∀ w r, (List.zipWith (fun x y => (AShare.mulConst x r).sub y) (av w i.prev) (rnd i n (A' w) (st w) i.prev)).map (·.b) =
        List.zipWith (fun x y => x * r - y) ((av w i.prev).map (·.b)) (A' w) := fun w r => by
      rw [List.map_zipWith]
      conv_rhs => rw [← rnd_prev_b (i := i) (hA' w) (st w), List.zipWith_map]
      rfl
    subst ea e1 e2
    rw [e, e]
    exact (hv false).trans (hv true).symm
  rintro o st4 ⟨hst4, io, hoo⟩
  refine Lock.bind' ((jmpVerify_lock H hst4).mono fun _ st5 hst5 => ?_)
  refine Lock.bind' (Lock.net (Talk.hashZero H (n := 1) (fun w => ?_) (by simp only [io, ib, ic0, ic1])) ?_)
  · have e : ∀ j, o w j = _ := hoo w
    simp only [e]
    exact Rels.singleton (dotCheck_zero _ (by rw [hX, hY]) (by rw [lxA, hY]) (hb w) (hc0 w) (hc1 w))
  exact Lock.pure (a := fun w j => (c0 w j).fromVerif K) (Q := fun _ _ => True) trivial

theorem malDot_cpl (H : Hash) (hV : 40 ≤ verifWidth K - K) {n : Nat} {a b : Bool → Party → List (AShare K)} {X Y : Bool → List (BitVec K)}
    (ha : ∀ w, Rels SharesOf (X w) (a w)) (hb : ∀ w, Rels SharesOf (Y w) (b w)) (hX : ∀ w, (X w).length = n) (hY : ∀ w, (Y w).length = n)
    (ia : a false i = a true i) (ib : b false i = b true i) :
    Cpl (f := f) i (dotBits (verifWidth K) [n]) (fun w j => MalAby3.dot H j (a w j) (b w j)) fun c =>
      c false i = c true i ∧ ∀ w, SharesOf (List.zipWith (· * ·) (X w) (Y w)).sum (c w) := by
  have hl : ∀ w, (X w).length = (Y w).length := fun w => by rw [hX, hY]
  refine Cpl.full (Q := fun _ => True) ?_ (by simp only [ia, ib]) fun w s hJ => dot_wp hV hJ (ha w) (hb w) (hl w)
  unfold MalAby3.dot
  refine Cpl.ite_neg (fun w j => by rw [(ha w).length, (hb w).length, hl]; simp) ?_
  generalize hVV : verifWidth K = V at hV
  have hKV : K ≤ V := by omega
  have la : ∀ w j, (a w j).length = n := fun w j => by rw [(ha w).length, hX]
  have lb : ∀ w j, (b w j).length = n := fun w j => by rw [(hb w).length, hY]
  have hA := fun w => (ha w).toVerif hKV
  have hB := fun w => (hb w).toVerif hKV
  choose XV eX hXV using hA
  choose YV eY hYV using hB
  have hXl : ∀ w, (XV w).length = n := fun w => by rw [← hX w, ← eX w, List.length_map]
  have hYl : ∀ w, (YV w).length = n := fun w => by rw [← hY w, ← eY w, List.length_map]
  have hal : ∀ w j, [(a w j).map (·.toVerif V)].map List.length = [n] := fun w j => by simp [la]
  have hbl : ∀ w j, [(b w j).map (·.toVerif V)].map List.length = [n] := fun w j => by simp [lb]
  intro st hst
  refine ⟨fun w u => dotTape i V [n] [(a w i.prev).map (·.toVerif V)] [(b w i.prev).map (·.toVerif V)] (st false) (st w) u,
    fun w u _ => dotTape_length (hal w _) (hbl w _) _ _ _, fun w u u' hu hu' h => dotTape_inj (hal w _) (hbl w _) _ _ hu hu' h, fun u hu => ?_⟩
  refine (Lock.full (Q := fun _ _ => True) ?_ hst (by simp only [ia, ib]) (R := fun _ _ => True) fun w t hJ =>
    (dotSacrifice_wp hV hJ (ha w) (hb w) (hl w)).mono fun _ _ h => ⟨trivial, h.2⟩).mono fun _ _ h => ⟨trivial, h.2.1⟩
  unfold dotSacrifice
  refine Lock.ite_neg (fun _ _ => by omega) ?_
  simp only [la]
  have L := fun w => dotTape_lengths (i := i) (hal w i.prev) (hbl w i.prev) (st w) u
    (coinVal i V (words 8 32 ((u.drop (V * [n].sum)).drop (V * ([n].length + [n].length)))) (dotCoinSt V [n] (st false)))
  refine dotBody1_lock (K := K) H hst (v := words V n u) (cs := words V 2 (u.drop (V * n)))
    (s := words 8 32 ((u.drop (V * n)).drop (V * 2)))
    (A' := fun w => List.zipWith (fun x y => x * coinVal i V (words 8 32 ((u.drop (V * n)).drop (V * 2)))
      (dotCoinSt V [n] (st false)) - y) ([(a w i.prev).map (·.toVerif V)].flatten.map (·.b)) (words V n u))
    (Z := fun w => maskTape (dotLoc ([(a w i.prev).map (·.toVerif V)] ++ rndRows i [n] _ (st w) i.prev)
      ([(b w i.prev).map (·.toVerif V)] ++ [(b w i.prev).map (·.toVerif V)])) (words V 2 (afterDraw (V * n) (st w) i.prev).tapeA) (words V 2 (u.drop (V * n))))
    (fun w => (L w).1)
    (fun w => maskTape_length ((L w).2 _ (L w).1) (words_length _ _ _) (words_length _ _ _)) (words_length _ _ _)
    hXV hYV hXl hYl (by rw [ia]) (by rw [ib]) (fun w => ?_) fun w => ?_
  · have : [(a w i.prev).map (·.toVerif V)].flatten = (a w i.prev).map (·.toVerif V) := by simp
    rw [this]
    exact zipWith_back _ (by simp [la])
  · have hl := (L w).2 _ (L w).1
    have er := rndRows_one (i := i) (n := n) (L w).1 (st w) i.prev
    refine Eq.trans (congrArg (fun l => maskVals (dotLoc ([(a w i.prev).map (·.toVerif V)] ++ l)
      ([(b w i.prev).map (·.toVerif V)] ++ [(b w i.prev).map (·.toVerif V)])) _ _) er.symm) ?_
    exact maskVals_maskTape _ _ _ (by rw [hl, words_length]; rfl) (by rw [hl, words_length]; rfl)

/-! ## The multiplication -/

theorem genRand_many {α : Type} (k : AShare V → Proto (JmpSt (idealPrg f)) α) :
    (genRand V >>= k) = genRandMany V 1 >>= fun l => k (l.headD ⟨0, 0⟩) := by
  unfold genRandMany genRandMany
  simp only [bind_assoc, pure_bind, List.headD_cons]

/-- The products computed by the party before `i`; the three factors are drawn in the order first, sacrificed, second. -/
def mulProds (i : Party) (A B A' : List (BitVec V)) (st : Party → JmpSt (idealPrg f)) : List (BitVec V) :=
  mulLoc (rnd i 1 A st i.prev ++ rnd i 1 A' (afterDraw (V * 1) st) i.prev)
    (rnd i 1 B (afterDraw (V * 1) (afterDraw (V * 1) st)) i.prev ++ rnd i 1 B (afterDraw (V * 1) (afterDraw (V * 1) st)) i.prev)

theorem one_list {a : Bool → Party → List (AShare V)} {S : BitVec V → (Party → AShare V) → Prop} {xs : Bool → List (BitVec V)}
    (hr : ∀ w, Rels S (xs w) (a w)) (hl : ∀ w, (xs w).length = 1) (ia : a false i = a true i) :
    ∃ (y : Bool → Party → AShare V) (z : Bool → BitVec V), (∀ w j, a w j = [y w j]) ∧ (∀ w, S (z w) (y w)) ∧ y false i = y true i := by
  have : ∀ w, ∃ (y : Party → AShare V) (z : BitVec V), (∀ j, a w j = [y j]) ∧ S z y := by
    intro w
    obtain ⟨z, hz⟩ := List.length_eq_one_iff.1 (hl w)
    have h := hr w
    rw [hz] at h
    obtain ⟨b1, b2, h1, h2, e⟩ := h.uncons
    have e2 := h2.eq_nil
    exact ⟨b1, z, fun j => by rw [e, e2], h1⟩
  choose y z h1 h2 using this
  refine ⟨y, z, h1, h2, ?_⟩
  have e := h1 false i
  rw [ia, h1 true i] at e
  injection e with e
  exact e.symm

theorem getMulTriple_lock (H : Hash) (hV : 40 ≤ V - K) {st : Bool → Party → JmpSt (idealPrg f)} (hst : Twin i st)
    {A B A' Z : Bool → List (BitVec V)} {s : Bytes} {v cs : List (BitVec V)} (hA : ∀ w, (A w).length = 1)
    (hB : ∀ w, (B w).length = 1) (hA' : ∀ w, (A' w).length = 1) (hZ : ∀ w, (Z w).length = 2) (hs : s.length = 32)
    (hv : ∀ w, List.zipWith (fun x y => x * coinVal i V s (coinSt V 1 (st false)) - y) (A w) (A' w) = v)
    (hcs : ∀ w, maskVals (mulProds i (A w) (B w) (A' w) (st w))
      (words V 2 (afterDraw (V * 1) (afterDraw (V * 1) (afterDraw (V * 1) (st w))) i.prev).tapeA) (Z w) = cs) :
    Lock i (fun w => tapesOf (A w) ++ (tapesOf (A' w) ++ (tapesOf (B w) ++ (tapesOf (Z w) ++ tapesOf s))))
      (fun _ j => getMulTriple H V K j) st fun x t => Twin i t ∧ x false i = x true i ∧
        (∀ w, ∃ p q : BitVec K, SharesOf p (fun j => (x w j).1) ∧ SharesOf q (fun j => (x w j).2.1) ∧
          SharesOf (p * q) (fun j => (x w j).2.2)) ∧
        (∀ w, [(x w i.prev).1.b] = (A w).map (fromVerif K)) ∧ ∀ w, [(x w i.prev).2.1.b] = (B w).map (fromVerif K) := by
  have wp : ∀ t : Party → JmpSt (idealPrg f), JmpOk t → WPS (fun j => getMulTriple H V K j) t (fun x t' => (∃ p q : BitVec K,
        SharesOf p (fun j => (x j).1) ∧ SharesOf q (fun j => (x j).2.1) ∧ SharesOf (p * q) (fun j => (x j).2.2)) ∧ JmpOk t') :=
    fun t hJ => getMulTriple_wp hV hJ
  refine (Lock.full (p := fun _ j => getMulTriple H V K j) (Q := fun x _ => (∀ w, [(x w i.prev).1.b] = (A w).map (fromVerif K)) ∧
      ∀ w, [(x w i.prev).2.1.b] = (B w).map (fromVerif K)) ?_ hst rfl (R := fun _ x => ∃ p q : BitVec K,
        SharesOf p (fun j => (x j).1) ∧ SharesOf q (fun j => (x j).2.1) ∧ SharesOf (p * q) (fun j => (x j).2.2))
      fun w t hJ => wp _ hJ).mono fun x t h => ⟨h.2.1, h.2.2.1, h.2.2.2, h.1⟩
  unfold getMulTriple
  refine Lock.ite_neg (fun _ _ => by omega) ?_
  simp only [genRand_many]
  refine Lock.bind ((genRandMany_lock hA hst).mono ?_)
  rintro a st1 ⟨ea, e1, hst1, ia, ra⟩
  refine Lock.bind ((genRandMany_lock hA' hst1).mono ?_)
  rintro a' st2 ⟨ea', e2, hst2, ia', ra'⟩
  refine Lock.bind ((genRandMany_lock hB hst2).mono ?_)
  rintro b st3 ⟨eb, e3, hst3, ib, rb⟩
  choose xA lxA ra using ra
  choose xB lxB rb using rb
  choose xA' lxA' ra' using ra'
  obtain ⟨a1, za, ha, sa, ia1⟩ := one_list ra lxA ia
  obtain ⟨b1, zb, hb, sb, ib1⟩ := one_list rb lxB ib
  obtain ⟨a1', za', ha', sa', ia1'⟩ := one_list ra' lxA' ia'
  simp only [ha, hb, ha', List.headD_cons]
  refine Lock.bind ((Lock.full (abyMulMany_lock (m := 2) (cs := cs) (a := fun w j => [a1 w j, a1' w j])
    (b := fun w j => [b1 w j, b1 w j]) (fun w j => rfl) hZ fun w => ?_) hst3 (by simp only [ia1, ia1', ib1])
    (R := fun w c => Rels SharesOf [za w * zb w, za' w * zb w] c) fun w t hJ =>
      abyMulMany_wp hJ (.cons (b := a1 w) (sa w) (.singleton (sa' w))) (.cons (b := b1 w) (sb w) (.singleton (sb w))) rfl).mono ?_)
  · have : mulLoc [a1 w i.prev, a1' w i.prev] [b1 w i.prev, b1 w i.prev] = mulProds i (A w) (B w) (A' w) (st w) := by
      have h1 := ha w i.prev
      have h2 := hb w i.prev
      have h3 := ha' w i.prev
      rw [ea] at h1
      rw [eb, e2, e1] at h2
      rw [ea', e1] at h3
      unfold mulProds
      have h1 : rnd i 1 (A w) (st w) i.prev = _ := h1
      have h2 : rnd i 1 (B w) (afterDraw (V * 1) (afterDraw (V * 1) (st w))) i.prev = _ := h2
      have h3 : rnd i 1 (A' w) (afterDraw (V * 1) (st w)) i.prev = _ := h3
      rw [h1, h2, h3]
      rfl
    rw [this]
    subst e1 e2 e3
    exact hcs w
  rintro c st4 ⟨e4, hst4, ic, rc⟩
  obtain ⟨c0, ec0, ic0, hc0⟩ := idx_same (m := 2) (k := 0) rc ic (fun _ => rfl) (by omega)
  obtain ⟨c1, ec1, ic1, hc1⟩ := idx_same (m := 2) (k := 1) rc ic (fun _ => rfl) (by omega)
  refine Lock.bind' (Lock.lift (a := c0) ec0 ?_)
  refine Lock.bind' (Lock.lift (a := c1) ec1 ?_)
  refine Lock.bind_last ((coinElem_lock V hst4 hs).mono ?_)
  rintro r st5 ⟨hst5, hr⟩
  obtain rfl : r = fun _ _ => coinVal i V s (st4 false) := funext fun w => funext fun j => hr w j
  have hopen : ∀ w r, [(((a1 w i.prev).mulConst r).sub (a1' w i.prev)).b] = List.zipWith (fun x y => x * r - y) (A w) (A' w) := by
    intro w r
    have h1 := ha w i.prev
    have h3 := ha' w i.prev
    rw [ea] at h1
    rw [ea'] at h3
    have := sacrifice_b (i := i) (hA w) (hA' w) r (st w) (st1 w)
    rw [← this]
    have h1 : rnd i 1 (A w) (st w) i.prev = _ := h1
    have h3 : rnd i 1 (A' w) (st1 w) i.prev = _ := h3
    rw [h1, h3]
    rfl
  have hso : ∀ w, SharesOf (za w * coinVal i V s (st4 false) - za' w) fun j => ((a1 w j).mulConst (coinVal i V s (st4 false))).sub (a1' w j) :=
    fun w => ((sa w).mulConst _).sub (sa' w)
  refine Lock.bind' ((Lock.full (Q := fun _ _ => True) (R := fun w o => ∀ j, o j = za w * coinVal i V s (st4 false) - za' w)
    (p := fun w j => reconstruct j (((a1 w j).mulConst (coinVal i V s (st4 false))).sub (a1' w j))) ?_ hst5
      (by simp only [ia1, ia1']) fun w t hJ => reconstruct_wp (hso w) hJ).mono ?_)
  · unfold reconstruct
    refine Lock.bind' ((jmpSendReceive_lock (x := fun w j => (((a1 w j).mulConst (coinVal i V s (st4 false))).sub (a1' w j)).b)
      (y := fun w j => (((a1 w j).mulConst (coinVal i V s (st4 false))).sub (a1' w j)).a) ?_).mono fun c t _ => ?_)
    · have h := (hv false).trans (hv true).symm
      subst e1 e2 e3 e4
      have h : List.zipWith (fun x y => x * coinVal i V s (coinSt V 1 (st false)) - y) (A false) (A' false) =
        List.zipWith (fun x y => x * coinVal i V s (coinSt V 1 (st false)) - y) (A true) (A' true) := h
      rw [← hopen, ← hopen] at h
      injection h with h
    · exact Lock.pure (a := fun w j => _) trivial
  rintro o st6 ⟨-, hst6, io, ho⟩
  refine Lock.bind' ((jmpVerify_lock H hst6).mono fun _ st7 hst7 => ?_)
  refine Lock.bind' (Lock.net (Talk.hashZero H (n := 1) (fun w => ?_) (by simp only [ib1, ic0, ic1, io])) ?_)
  · have e : ∀ j, o w j = _ := ho w
    simp only [e]
    refine Rels.singleton ?_
    have := ((((sb w).mulConst (za w * coinVal i V s (st4 false) - za' w)).sub ((hc0 w).mulConst (coinVal i V s (st4 false)))).add (hc1 w))
    convert this using 1
    simp only [List.getElem_cons_zero, List.getElem_cons_succ]
    ring
  refine Lock.pure (a := fun w j => ((a1 w j).fromVerif K, (b1 w j).fromVerif K, (c0 w j).fromVerif K))
    (Q := fun x _ => (∀ w, [(x w i.prev).1.b] = (A w).map (fromVerif K)) ∧
        ∀ w, [(x w i.prev).2.1.b] = (B w).map (fromVerif K)) ⟨fun w => ?_, fun w => ?_⟩
  · have h1 := ha w i.prev
    rw [ea] at h1
    have h := rnd_prev_b (i := i) (hA w) (st w)
    have h1 : rnd i 1 (A w) (st w) i.prev = _ := h1
    rw [← h, h1]
    rfl
  · have h1 := hb w i.prev
    rw [eb] at h1
    have h := rnd_prev_b (i := i) (hB w) (st2 w)
    have h1 : rnd i 1 (B w) (st2 w) i.prev = _ := h1
    rw [← h, h1]
    rfl

/-- The masks of the products. -/
def TripleParts.Z1 (x : TripleParts V) (i : Party) (sa sb : List (BitVec V)) (r : BitVec V) (st : Party → JmpSt (idealPrg f)) :
    List (BitVec V) :=
  maskTape (mulProds i (x.A sa) (x.B sb) (x.A' sa r) st)
    (words V 2 (afterDraw (V * 1) (afterDraw (V * 1) (afterDraw (V * 1) st)) i.prev).tapeA) x.c

theorem mulProds_length {A B A' : List (BitVec V)} (hA : A.length = 1) (hB : B.length = 1) (hA' : A'.length = 1)
    (st : Party → JmpSt (idealPrg f)) : (mulProds i A B A' st).length = 2 := by
  simp [mulProds, mulLoc, rnd_length hA, rnd_length hB, rnd_length hA']

/-- The tape of a single triple. -/
def mulTape (i : Party) (V : Nat) (sa sb : List (BitVec V)) (st0 st : Party → JmpSt (idealPrg f)) (u : List Bool) : List Bool :=
  let x := tripleParts V 1 u
  let r := coinVal i V x.s (coinSt V 1 st0)
  tapesOf (x.A sa) ++ (tapesOf (x.A' sa r) ++ (tapesOf (x.B sb) ++ (tapesOf (x.Z1 i sa sb r st) ++ tapesOf x.s)))

theorem mulTape_lengths {sa sb : List (BitVec V)} (ha : sa.length = 1) (hb : sb.length = 1)
    (st : Party → JmpSt (idealPrg f)) (u : List Bool) (r : BitVec V) :
    ((tripleParts V 1 u).A sa).length = 1 ∧ ((tripleParts V 1 u).B sb).length = 1 ∧ ((tripleParts V 1 u).A' sa r).length = 1 ∧
      ((tripleParts V 1 u).Z1 i sa sb r st).length = 2 ∧ (tripleParts V 1 u).s.length = 32 := by
  have h1 : ((tripleParts V 1 u).A sa).length = 1 := by simp [TripleParts.A, tripleParts, ha]
  have h2 : ((tripleParts V 1 u).B sb).length = 1 := by simp [TripleParts.B, tripleParts, hb]
  have h3 : ((tripleParts V 1 u).A' sa r).length = 1 := by
    unfold TripleParts.A'
    rw [List.length_zipWith, h1]
    simp [tripleParts]
  refine ⟨h1, h2, h3, ?_, words_length _ _ _⟩
  exact maskTape_length (mulProds_length h1 h2 h3 st) (words_length _ _ _) (words_length _ _ _)

theorem mulTape_length {sa sb : List (BitVec V)} (ha : sa.length = 1) (hb : sb.length = 1)
    (st0 st : Party → JmpSt (idealPrg f)) (u : List Bool) : (mulTape i V sa sb st0 st u).length = tripleBits V 1 := by
  obtain ⟨h1, h2, h3, h4, h5⟩ := mulTape_lengths (i := i) ha hb st u (coinVal i V (tripleParts V 1 u).s (coinSt V 1 st0))
  unfold mulTape
  simp only [List.length_append, tapesOf_length, h1, h2, h3, h4, h5]
  rfl

theorem mulTape_inj {sa sb : List (BitVec V)} (ha : sa.length = 1) (hb : sb.length = 1)
    (st0 st : Party → JmpSt (idealPrg f)) {u u' : List Bool} (hu : u.length = tripleBits V 1) (hu' : u'.length = tripleBits V 1)
    (h : mulTape i V sa sb st0 st u = mulTape i V sa sb st0 st u') : u = u' := by
  have L := fun u => mulTape_lengths (i := i) ha hb st u (coinVal i V (tripleParts V 1 u).s (coinSt V 1 st0))
  obtain ⟨h1, h2, h3, h4, h5⟩ := L u
  obtain ⟨k1, k2, k3, k4, k5⟩ := L u'
  unfold mulTape at h
  obtain ⟨e1, h⟩ := List.append_inj h (by simp only [tapesOf_length, h1, k1])
  obtain ⟨e3, h⟩ := List.append_inj h (by simp only [tapesOf_length, h3, k3])
  obtain ⟨e2, h⟩ := List.append_inj h (by simp only [tapesOf_length, h2, k2])
  obtain ⟨e4, e5⟩ := List.append_inj h (by simp only [tapesOf_length, h4, k4])
  have e1 := tapesOf_inj (by rw [h1, k1]) e1
  have e2 := tapesOf_inj (by rw [h2, k2]) e2
  have e3 := tapesOf_inj (by rw [h3, k3]) e3
  have e4 := tapesOf_inj (by rw [h4, k4]) e4
  have e5 := tapesOf_inj (by rw [h5, k5]) e5
  have ca : ∀ (l : List (BitVec V)), l.length = 1 → ∀ u : List Bool, (tripleParts V 1 u).oa.length = l.length ∧
      (tripleParts V 1 u).ob.length = l.length ∧ (tripleParts V 1 u).v.length = l.length := fun l hl u => by
    simp [tripleParts, hl]
  rw [e5] at e3 e4
  refine tripleParts_inj hu hu' ?_
  have a1 : (tripleParts V 1 u).oa = (tripleParts V 1 u').oa :=
    zipWith_cancel (g := (· + ·)) (fun x y y' h => by simpa using h) (ca sa ha u).1 (ca sa ha u').1 e1
  have a2 : (tripleParts V 1 u).ob = (tripleParts V 1 u').ob :=
    zipWith_cancel (g := (· + ·)) (fun x y y' h => by simpa using h) (ca sb hb u).2.1 (ca sb hb u').2.1 e2
  have a3 : (tripleParts V 1 u).v = (tripleParts V 1 u').v := by
    have e3' := e3
    unfold TripleParts.A' at e3'
    rw [e1] at e3'
    exact zipWith_cancel (fun x y y' h => by simpa using h) (ca _ k1 u).2.2 (ca _ k1 u').2.2 e3'
  have a4 : (tripleParts V 1 u).c = (tripleParts V 1 u').c := by
    unfold TripleParts.Z1 at e4
    rw [e1, e2, e3] at e4
    have hl := mulProds_length (i := i) k1 k2 k3 st
    exact maskTape_inj (by rw [hl]; simp) (by rw [hl]; simp [tripleParts]) (by rw [hl]; simp [tripleParts]) e4
  show TripleParts.mk _ _ _ _ _ = TripleParts.mk _ _ _ _ _
  rw [TripleParts.mk.injEq]
  exact ⟨a1, a2, a3, a4, e5⟩

theorem malMul_cpl (H : Hash) (hV : 40 ≤ verifWidth K - K) {a b : Bool → Party → AShare K} {x y : Bool → BitVec K}
    (ha : ∀ w, SharesOf (x w) (a w)) (hb : ∀ w, SharesOf (y w) (b w)) (ia : a false i = a true i) (ib : b false i = b true i) :
    Cpl (f := f) i (tripleBits (verifWidth K) 1) (fun w j => MalAby3.mul H j (a w j) (b w j)) fun c =>
      c false i = c true i ∧ ∀ w, SharesOf (x w * y w) (c w) := by
  refine Cpl.full (Q := fun _ => True) ?_ (by simp only [ia, ib]) fun w s hJ => mul_wp hV hJ (ha w) (hb w)
  intro st hst
  have wp : ∀ w (t : Party → JmpSt (idealPrg f)), JmpOk t → WPS (fun j => MalAby3.mul H j (a w j) (b w j)) t (fun _ t' => True ∧ JmpOk t') :=
    fun w t hJ => (mul_wp hV hJ (ha w) (hb w)).mono fun _ _ h => ⟨trivial, h.2⟩
  unfold MalAby3.mul at wp ⊢
  generalize hVV : verifWidth K = V at hV wp ⊢
  have hKV : K ≤ V := by omega
  let sh : (Bool → Party → AShare K) → Bool → List (BitVec V) := fun a w => [toVerif V (a w i.prev).b]
  have ls : ∀ a w, (sh a w).length = 1 := fun a w => rfl
  refine ⟨fun w u => mulTape i V (sh a w) (sh b w) (st false) (st w) u,
    fun w u _ => mulTape_length (ls a w) (ls b w) _ _ _, fun w u u' hu hu' h => mulTape_inj (ls a w) (ls b w) _ _ hu hu' h, fun u hu => ?_⟩
  refine (Lock.full (Q := fun _ _ => True) ?_ hst (by simp only [ia, ib]) (R := fun _ _ => True) fun w t hJ => wp w _ hJ).mono
    fun _ _ h => ⟨trivial, h.2.1⟩
  have L := fun w => mulTape_lengths (i := i) (ls a w) (ls b w) (st w) u (coinVal i V (tripleParts V 1 u).s (coinSt V 1 (st false)))
  have hl := fun w => mulProds_length (i := i) (L w).1 (L w).2.1 (L w).2.2.1 (st w)
  refine Lock.bind_last ((getMulTriple_lock H hV hst (fun w => (L w).1) (fun w => (L w).2.1) (fun w => (L w).2.2.1) (fun w => (L w).2.2.2.1)
    (L false).2.2.2.2 (v := (tripleParts V 1 u).v) (cs := (tripleParts V 1 u).c)
    (fun w => zipWith_back _ (by rw [(L w).1]; simp [tripleParts]))
    fun w => maskVals_maskTape _ _ _ (by rw [hl]; simp) (by rw [hl]; simp [tripleParts])).mono ?_)
  rintro z t ⟨ht, iz, hz, hA, hB⟩
  choose p q hp hq hpq using hz
  have cancel : ∀ (c : BitVec K) (d : BitVec V), c - fromVerif K (toVerif V c + d) = - fromVerif K d := by
    intro c d
    unfold fromVerif toVerif
    rw [BitVec.setWidth_add _ _ hKV, BitVec.setWidth_setWidth_of_le _ hKV, BitVec.setWidth_eq]
    ring
  refine Lock.bind' ((reconstructMany_lock (ss := fun w j => [(a w j).sub (z w j).1, (b w j).sub (z w j).2.1]) ht
    (fun w => .cons (b := fun j => (a w j).sub (z w j).1) ((ha w).sub (hp w)) (.singleton ((hb w).sub (hq w))))
    (by simp only [ia, ib, iz]) ?_).mono ?_)
  · obtain ⟨da, hda⟩ := List.length_eq_one_iff.1 (show (tripleParts V 1 u).oa.length = 1 by simp [tripleParts])
    obtain ⟨db, hdb⟩ := List.length_eq_one_iff.1 (show (tripleParts V 1 u).ob.length = 1 by simp [tripleParts])
    have e1 : ∀ w, ((a w i.prev).sub (z w i.prev).1).b = - fromVerif K da := fun w => by
      have h := hA w
      unfold TripleParts.A at h
      rw [hda] at h
      have h : [(z w i.prev).1.b] = [fromVerif K (toVerif V (a w i.prev).b + da)] := h
      injection h with h
      show (a w i.prev).b - (z w i.prev).1.b = _
      rw [h, cancel]
    have e2 : ∀ w, ((b w i.prev).sub (z w i.prev).2.1).b = - fromVerif K db := fun w => by
      have h := hB w
      unfold TripleParts.B at h
      rw [hdb] at h
      have h : [(z w i.prev).2.1.b] = [fromVerif K (toVerif V (b w i.prev).b + db)] := h
      injection h with h
      show (b w i.prev).b - (z w i.prev).2.1.b = _
      rw [h, cancel]
    simp only [List.map_cons, List.map_nil, e1, e2]
  · rintro uv t' ⟨-, -, huv⟩
    obtain rfl := funext fun w => funext fun j => huv w j
    refine Lock.bind' (Lock.lift (a := fun w _ => _) (fun w j => rfl) ?_)
    refine Lock.bind' (Lock.lift (a := fun w _ => _) (fun w j => rfl) ?_)
    exact Lock.pure (Q := fun _ _ => True) (a := fun w j => _) trivial

end Verif
