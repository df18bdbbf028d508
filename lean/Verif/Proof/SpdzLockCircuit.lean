import Verif.Proof.SpdzLockGate

/-!
# Lock-step runs of the circuits of the SPDZ-wise backend

As in `Proof/UniAby3.lean`, only sizes matter, since every message is masked.
-/

namespace Verif

namespace SpdzCpl

variable {f : Bytes → List Bool} {V K n m L : Nat}

/-- In both worlds the three parties have lists of length `n`. -/
def Sh {α : Type} (n : Nat) (a : Bool → Party → List α) : Prop := ∀ w j, (a w j).length = n

/-- In both worlds the three parties have `n` lists of length `m`. -/
def Rows {α : Type} (n m : Nat) (a : Bool → Party → List (List α)) : Prop := ∀ w j, (a w j).length = n ∧ ∀ l ∈ a w j, l.length = m

theorem xorMany {a b : Bool → Party → List (AShare K)} (ha : Sh n a) (hb : Sh n b) :
    ∃ c : Bool → Party → List (AShare K), Sh n c ∧ ∀ w j, ((Spdz.fam (idealPrg f) V j).ops K).xorMany (a w j) (b w j) = .ok (c w j) :=
  ⟨fun w j => List.zipWith AShare.xor (a w j) (b w j), fun w j => by simp [ha w j, hb w j], fun w j => by
    unfold BinOps.xorMany
    rw [if_neg (by simp [ha w j, hb w j])]
    rfl⟩

theorem or {i : Party} {a b : Bool → Party → AShare K} :
    CplB (f := f) (V := V) L i (K * (1)) (fun w j => ((Spdz.fam (idealPrg f) V j).ops K).or (a w j) (b w j)) (fun _ => True) := by
  unfold BinOps.or
  exact CplB.bind_local and_cplB fun c _ => CplB.pure trivial

theorem orMany {i : Party} {a b : Bool → Party → List (AShare K)} (ha : Sh n a) (hb : Sh n b) :
    CplB (f := f) (V := V) L i (K * (n)) (fun w j => ((Spdz.fam (idealPrg f) V j).ops K).orMany (a w j) (b w j)) (Sh n) := by
  unfold BinOps.orMany
  refine CplB.ite_neg (fun w j => by simp [ha w j, hb w j]) ?_
  refine CplB.bind_local (andMany_cplB ha hb) fun c hc => ?_
  obtain ⟨d, hd, ed⟩ := xorMany (f := f) (V := V) ha hb
  obtain ⟨e, he, ee⟩ := xorMany (f := f) (V := V) hc hd
  exact CplB.bind' (CplB.lift ed rfl) fun d' hd' => hd' ▸ CplB.lift ee he

theorem orChunks {i : Party} : ∀ (ns : List Nat) {a b : Bool → Party → List (List (AShare K))},
    (∀ w j, (a w j).map List.length = ns) → (∀ w j, (b w j).map List.length = ns) →
    CplB (f := f) (V := V) L i (ns.map fun n => K * n).sum (fun w j => ((Spdz.fam (idealPrg f) V j).ops K).orChunks ((a w j).zip (b w j))) (Sh ns.sum) := by
  intro ns
  induction ns with
  | nil =>
    intro a b ha hb
    refine CplB.congr (q := fun _ _ => Pure.pure []) (fun w j => ?_) (CplB.pure (a := fun _ _ => []) fun _ _ => rfl)
    rw [List.map_eq_nil_iff.1 (ha w j)]; rfl
  | cons n ns ih =>
    intro a b ha hb
    have hc : ∀ w j, ∃ x r, a w j = x :: r ∧ x.length = n ∧ r.map List.length = ns := fun w j => by
      obtain ⟨x, r, h1, h2, h3⟩ := List.map_eq_cons_iff.1 (ha w j)
      exact ⟨x, r, h1, h2, h3⟩
    have hd : ∀ w j, ∃ x r, b w j = x :: r ∧ x.length = n ∧ r.map List.length = ns := fun w j => by
      obtain ⟨x, r, h1, h2, h3⟩ := List.map_eq_cons_iff.1 (hb w j)
      exact ⟨x, r, h1, h2, h3⟩
    choose x r hx hxn hr using hc
    choose y s hy hyn hs using hd
    simp only [hx, hy, List.zip_cons_cons, BinOps.orChunks]
    refine CplB.bind (n := (K * (n))) (orMany hxn hyn) fun c hc => ?_
    refine CplB.bind_local (ih hr hs) fun d hd => CplB.pure fun w j => ?_
    simp [hc w j, hd w j]

theorem orTreeLoop (K : Nat) {c : Nat} (hc : c ≠ 0) (n : Nat) (hn : n ≠ 0) : ∃ N, ∀ (i : Party) (a : Bool → Party → List (AShare K)),
    Sh n a → CplB (f := f) (V := V) L i N (fun w j => ((Spdz.fam (idealPrg f) V j).ops K).orTreeLoop c n (a w j)) (Sh 1) := by
  induction n using Nat.strong_induction_on with
  | _ n ih =>
    by_cases hlt : n > 1
    · obtain ⟨F', hF'⟩ := ih (n / 2 + n % 2) (by omega) (by omega)
      refine ⟨(((chunksOf c (List.replicate (n / 2) ())).map List.length).map fun n => K * n).sum + F', fun i a ha => ?_⟩
      unfold BinOps.orTreeLoop
      simp only [hlt, if_true]
      refine CplB.ite_neg (fun w j => by rw [ha w j]; omega) ?_
      refine CplB.bind' (CplB.lift (a := fun w j => chunksOf c ((a w j).take (n / 2))) (fun w j => by simp [chunksE, hc]) rfl) ?_
      rintro _ rfl
      refine CplB.bind' (CplB.lift (a := fun w j => chunksOf c (((a w j).drop (n / 2)).take (n / 2))) (fun w j => by simp [chunksE, hc]) rfl) ?_
      rintro _ rfl
      refine CplB.bind (orChunks _ (fun w j => ?_) fun w j => ?_) fun r hr => ?_
      · exact Uni.chunks_lengths _ _ _ (by simp [ha w j]; omega)
      · exact Uni.chunks_lengths _ _ _ (by simp [ha w j]; omega)
      · refine hF' i _ fun w j => ?_
        rw [List.length_append, hr w j, ← List.length_flatten, chunksOf_flatten hc]
        simp [ha w j]; omega
    · refine ⟨0, fun i a ha => ?_⟩
      unfold BinOps.orTreeLoop
      simp only [hlt, if_false]
      exact CplB.pure fun w j => by rw [ha w j]; omega

theorem idx_ok {α : Type} {a : Bool → Party → List α} (ha : Sh n a) {k : Nat} (hk : k < n) :
    ∃ x : Bool → Party → α, (∀ w j, x w j ∈ a w j) ∧ ∀ w j, idx (a w j) k = .ok (x w j) := by
  refine ⟨fun w j => (a w j)[k]'(by rw [ha w j]; exact hk), fun w j => List.getElem_mem _, fun w j => ?_⟩
  simp [idx, ha w j, hk]

theorem orTree (K : Nat) {c : Nat} (hc : c ≠ 0) (n : Nat) (hn : n ≠ 0) : ∃ N, ∀ (i : Party) (a : Bool → Party → List (AShare K)),
    Sh n a → CplB (f := f) (V := V) L i N (fun w j => ((Spdz.fam (idealPrg f) V j).ops K).orTree c (a w j)) (fun _ => True) := by
  obtain ⟨F, hF⟩ := orTreeLoop (f := f) (V := V) (L := L) K hc n hn
  refine ⟨F, fun i a ha => ?_⟩
  unfold BinOps.orTree
  simp only [ha _ _]
  refine CplB.bind_local (hF i a ha) fun r hr => ?_
  obtain ⟨x, -, ex⟩ := idx_ok hr Nat.one_pos
  exact CplB.lift ex trivial

theorem reduceHalf {i : Party} {T : Nat} (U : Nat) {a : Bool → Party → AShare T} :
    CplB (f := f) (V := V) L i (U * (1)) (fun w j => (Spdz.fam (idealPrg f) V j).reduceHalf U (a w j)) (fun _ => True) := by
  unfold BinFam.reduceHalf
  have h2 : Sh 2 fun w j => (Spdz.fam (idealPrg f) V j).mapLists
      (fun l => l.flatMap fun x => [(splitHalves U x).1, (splitHalves U x).2]) [a w j] := fun w j =>
    Uni.mapLists_length (n := 1) (fun l hl => by
      obtain ⟨x, rfl⟩ := List.length_eq_one_iff.1 hl; rfl) rfl
  obtain ⟨x, -, ex⟩ := idx_ok h2 (k := 0) (by omega)
  obtain ⟨y, -, ey⟩ := idx_ok h2 (k := 1) (by omega)
  exact CplB.bind' (CplB.lift (Q := fun _ => True) ex trivial) fun x' _ =>
    CplB.bind' (CplB.lift (Q := fun _ => True) ey trivial) fun y' _ => or

theorem reduceLoop (e : Nat) : ∃ N, ∀ (i : Party) (a : Bool → Party → List (AShare 1)), Sh (2 ^ e) a →
    CplB (f := f) (V := V) L i N (fun w j => (Spdz.fam (idealPrg f) V j).reduceLoop (2 ^ e) (a w j)) (Sh 1) := by
  induction e with
  | zero =>
    refine ⟨0, fun i a ha => ?_⟩
    exact CplB.congr (q := fun w j => Pure.pure (a w j)) (fun w j => by rw [BinFam.reduceLoop]; rfl) (CplB.pure ha)
  | succ e ih =>
    obtain ⟨F, hF⟩ := ih
    refine ⟨1 * 2 ^ e + F, fun i a ha => ?_⟩
    have h2 : 2 ^ (e + 1) / 2 = 2 ^ e := by rw [pow_succ]; omega
    have hpos := Nat.two_pow_pos e
    refine CplB.congr (fun w j => by rw [BinFam.reduceLoop, if_neg (by rw [pow_succ]; omega)]) ?_
    simp only [h2]
    refine CplB.bind (n := (1 * (2 ^ e))) (orMany (fun w j => ?_) fun w j => ?_) fun d hd => hF i d hd
    · simp only [List.length_take, ha w j, pow_succ]; omega
    · simp only [List.length_drop, ha w j, pow_succ]; omega

theorem reduceOrU8 : ∃ N, ∀ (i : Party) (a : Bool → Party → AShare 8),
    CplB (f := f) (V := V) L i N (fun w j => (Spdz.fam (idealPrg f) V j).reduceOrU8 (a w j)) (fun _ => True) := by
  obtain ⟨F, hF⟩ := reduceLoop (f := f) (V := V) (L := L) 3
  refine ⟨F, fun i a => ?_⟩
  unfold BinFam.reduceOrU8
  refine CplB.bind_local (hF i _ fun w j => Uni.mapLists_length (n := 1) (fun l hl => by
      obtain ⟨x, rfl⟩ := List.length_eq_one_iff.1 hl; simp) rfl) fun d hd => ?_
  obtain ⟨x, -, ex⟩ := idx_ok hd Nat.one_pos
  exact CplB.lift ex trivial

theorem reduceOrU128 : ∃ N, ∀ (i : Party) (a : Bool → Party → AShare 128),
    CplB (f := f) (V := V) L i N (fun w j => (Spdz.fam (idealPrg f) V j).reduceOrU128 (a w j)) (fun _ => True) := by
  obtain ⟨F, hF⟩ := reduceOrU8 (f := f) (V := V) (L := L)
  refine ⟨(64 * (1)) + ((32 * (1)) + ((16 * (1)) + ((8 * (1)) + F))), fun i a => ?_⟩
  unfold BinFam.reduceOrU128
  exact CplB.bind (reduceHalf 64) fun _ _ => CplB.bind (reduceHalf 32) fun _ _ =>
    CplB.bind (reduceHalf 16) fun _ _ => CplB.bind (reduceHalf 8) fun _ _ => hF i _

theorem reduceBinaryOr {c : Nat} (hc : c ≠ 0) (n : Nat) (hn : n ≠ 0) : ∃ N, ∀ (i : Party) (a : Bool → Party → List (AShare 1)),
    Sh n a → CplB (f := f) (V := V) L i N (fun w j => Spdz.reduceBinaryOr (G := idealPrg f) (V := V) j (a w j) c) (fun _ => True) := by
  obtain ⟨F, hF⟩ := orTree (f := f) (V := V) (L := L) 128 hc ((n + 127) / 128) (by omega)
  obtain ⟨F', hF'⟩ := reduceOrU128 (f := f) (V := V) (L := L)
  refine ⟨F + F', fun i a ha => ?_⟩
  unfold Spdz.reduceBinaryOr BinFam.reduceBinaryOr
  refine CplB.bind (hF i _ fun w j => ?_) fun r _ => hF' i r
  unfold BinFam.pack
  rw [List.length_flatMap, List.map_congr_left (g := fun _ => 1), List.map_const', List.sum_replicate_nat,
    chunksOf_length (by decide), ha w j, Nat.mul_one]
  · rfl
  · intro ch _
    exact Uni.mapLists_length (f := fun l => [packWord 128 l]) (m := 1) (n := ch.length) (fun _ _ => rfl) rfl

/-! ## The most significant bit -/

theorem transposePack {a : Bool → Party → List (AShare K)} (ha : Sh n a) :
    Rows K ((n + 127) / 128) fun w j => (Spdz.fam (idealPrg f) V j).transposePack (a w j) :=
  fun w j => Uni.transposePack (a := a w) (ha w) j

theorem transposedXor {a b : Bool → Party → List (List (AShare 128))} (ha : Rows n m a) (hb : Rows n m b) :
    Rows n m fun w j => (Spdz.fam (idealPrg f) V j).transposedXor (a w j) (b w j) := by
  intro w j
  unfold BinFam.transposedXor
  refine ⟨by rw [List.length_zipWith, (ha w j).1, (hb w j).1, Nat.min_self], fun l hl => ?_⟩
  obtain ⟨x, hx, y, hy, rfl⟩ := Uni.mem_zipWith hl
  rw [List.length_zipWith, (ha w j).2 x hx, (hb w j).2 y hy, Nat.min_self]

theorem popRows {α : Type} {a : Bool → Party → List (List α)} (ha : Rows (n + 1) m a) :
    ∃ r : Bool → Party → List α × List (List α), (∀ w j, popE (a w j) = .ok (r w j)) ∧ Sh m (fun w j => (r w j).1) ∧ Rows n m fun w j => (r w j).2 := by
  have hne : ∀ w j, a w j ≠ [] := fun w j h => by
    have := (ha w j).1
    rw [h] at this; simp at this
  refine ⟨fun w j => ((a w j).getLast (hne w j), (a w j).dropLast), fun w j => ?_, fun w j => (ha w j).2 _ (List.getLast_mem _), fun w j => ⟨?_, ?_⟩⟩
  · simp [popE, List.getLast?_eq_getLast_of_ne_nil (hne w j)]
  · simp [(ha w j).1]
  · intro l hl
    exact (ha w j).2 l (List.dropLast_subset _ hl)

theorem transposedAnd {i : Party} {a b : Bool → Party → List (List (AShare 128))} (hm : m ≠ 0) (ha : Rows (n + 1) m a) (hb : Rows (n + 1) m b) :
    CplB (f := f) (V := V) L i (128 * ((n + 1) * m)) (fun w j => (Spdz.fam (idealPrg f) V j).transposedAnd (a w j) (b w j)) (Rows (n + 1) m) := by
  unfold BinFam.transposedAnd
  obtain ⟨g, hf, ef⟩ := idx_ok (k := 0) (fun w j => (ha w j).1) (by omega)
  have hl : ∀ w j, (g w j).length = m := fun w j => (ha w j).2 _ (hf w j)
  refine CplB.bind' (CplB.lift (Q := Sh m) ef hl) fun f' hl' => ?_
  refine CplB.bind_local (andMany_cplB (fun w j => Uni.flatten_rows (ha w j).1 (ha w j).2) fun w j => Uni.flatten_rows (hb w j).1 (hb w j).2) fun c hc => ?_
  exact CplB.lift (a := fun w j => chunksOf m (c w j)) (fun w j => by rw [hl' w j]; simp [chunksE, hm])
    fun w j => Uni.chunksOf_rows hm (n + 1) (c w j) (hc w j)

theorem rippleLoop (m : Nat) : ∀ (n : Nat), ∃ N, ∀ (i : Party) (a : Bool → Party → List (List (AShare 128) × List (AShare 128)))
    (c : Bool → Party → List (AShare 128)), (∀ w j, (a w j).length = n ∧ ∀ p ∈ a w j, p.1.length = m ∧ p.2.length = m) → Sh m c →
    CplB (f := f) (V := V) L i N (fun w j => (Spdz.fam (idealPrg f) V j).rippleLoop (a w j) (c w j)) (Sh m) := by
  intro n
  induction n with
  | zero =>
    refine ⟨0, fun i a c ha hc => ?_⟩
    refine CplB.congr (q := fun w j => Pure.pure (c w j)) (fun w j => ?_) (CplB.pure hc)
    rw [List.length_eq_zero_iff.1 (ha w j).1]; rfl
  | succ n ih =>
    obtain ⟨F, hF⟩ := ih
    refine ⟨(128 * (m)) + F, fun i a c ha hc => ?_⟩
    have hx : ∀ w j, ∃ x r, a w j = x :: r := fun w j => List.exists_cons_of_length_eq_add_one (ha w j).1
    choose x r hx using hx
    have hx1 : Sh m fun w j => (x w j).1 := fun w j => ((ha w j).2 (x w j) (by simp [hx])).1
    have hx2 : Sh m fun w j => (x w j).2 := fun w j => ((ha w j).2 (x w j) (by simp [hx])).2
    refine CplB.congr (q := fun w j => (Spdz.fam (idealPrg f) V j).rippleLoop (((x w j).1, (x w j).2) :: r w j) (c w j)) (fun w j => by rw [hx]) ?_
    simp only [BinFam.rippleLoop]
    obtain ⟨ta, hta, eta⟩ := xorMany (f := f) (V := V) hx1 hc
    obtain ⟨tb, htb, etb⟩ := xorMany (f := f) (V := V) hx2 hc
    refine CplB.bind' (CplB.lift eta hta) fun ta' hta' => ?_
    refine CplB.bind' (CplB.lift etb htb) fun tb' htb' => ?_
    refine CplB.bind (andMany_cplB hta' htb') fun tc htc => ?_
    obtain ⟨d, hd, ed⟩ := xorMany (f := f) (V := V) htc hc
    refine CplB.bind' (CplB.lift ed hd) fun d' hd' => ?_
    refine hF i r d' (fun w j => ⟨?_, fun p hp => (ha w j).2 p (by simp [hx, hp])⟩) hd'
    have := (ha w j).1
    rw [hx] at this
    simpa using this

theorem msbAdderMany (hK : 3 ≤ K) (n : Nat) (hn : n ≠ 0) : ∃ N, ∀ (i : Party) (a b c : Bool → Party → List (AShare K)),
    Sh n a → Sh n b → Sh n c → CplB (f := f) (V := V) L i N (fun w j => (Spdz.fam (idealPrg f) V j).msbAdderMany (a w j) (b w j) (c w j)) (Sh n) := by
  obtain ⟨k, rfl⟩ : ∃ k, K = k + 3 := ⟨K - 3, by omega⟩
  obtain ⟨F, hF⟩ := rippleLoop (f := f) (V := V) (L := L) ((n + 127) / 128) k
  have hm : (n + 127) / 128 ≠ 0 := by omega
  refine ⟨(128 * ((k + 1 + 1) * ((n + 127) / 128))) + ((128 * ((n + 127) / 128)) + F), fun i a b c ha hb hc => ?_⟩
  unfold BinFam.msbAdderMany
  refine CplB.ite_neg (fun w j => by simp [ha w j, hb w j, hc w j]) ?_
  have t1 := transposePack (f := f) (V := V) ha
  have t2 := transposePack (f := f) (V := V) hb
  have t3 := transposePack (f := f) (V := V) hc
  have t23 := transposedXor (f := f) (V := V) t2 t3
  have ts := transposedXor (f := f) (V := V) t1 t23
  have t13 := transposedXor (f := f) (V := V) t1 t3
  obtain ⟨p13, ep13, -, hp13⟩ := popRows t13
  obtain ⟨p23, ep23, -, hp23⟩ := popRows t23
  obtain ⟨p3, ep3, -, hp3⟩ := popRows t3
  refine CplB.bind' (CplB.lift (Q := (· = p13)) ep13 rfl) ?_
  rintro _ rfl
  refine CplB.bind' (CplB.lift (Q := (· = p23)) ep23 rfl) ?_
  rintro _ rfl
  refine CplB.bind' (CplB.lift (Q := (· = p3)) ep3 rfl) ?_
  rintro _ rfl
  refine CplB.bind (transposedAnd hm hp13 hp23) fun x hx => ?_
  have tb := transposedXor (f := f) (V := V) hx hp3
  obtain ⟨r1, hr1, er1⟩ := idx_ok (k := 1) (fun w j => (ts w j).1) (by omega)
  obtain ⟨r0, hr0, er0⟩ := idx_ok (k := 0) (fun w j => (tb w j).1) (by omega)
  refine CplB.bind' (CplB.lift (Q := (· = r1)) er1 rfl) ?_
  rintro _ rfl
  refine CplB.bind' (CplB.lift (Q := (· = r0)) er0 rfl) ?_
  rintro _ rfl
  refine CplB.bind (andMany_cplB (fun w j => (ts w j).2 _ (hr1 w j)) fun w j => (tb w j).2 _ (hr0 w j)) fun y hy => ?_
  obtain ⟨pa, epa, hpa, hpa'⟩ := popRows ts
  obtain ⟨pb, epb, hpb, hpb'⟩ := popRows tb
  refine CplB.bind' (CplB.lift (Q := (· = pa)) epa rfl) ?_
  rintro _ rfl
  refine CplB.bind' (CplB.lift (Q := (· = pb)) epb rfl) ?_
  rintro _ rfl
  refine CplB.bind_local (hF i _ y (fun w j => ⟨?_, fun p hp => ?_⟩) hy) fun z hz => ?_
  · simp [(hpa' w j).1, (hpb' w j).1]
  · obtain ⟨q1, q2⟩ := List.of_mem_zip hp
    exact ⟨(hpa' w j).2 _ (List.mem_of_mem_drop q1), (hpb' w j).2 _ (List.mem_of_mem_drop q2)⟩
  · obtain ⟨v, hv, ev⟩ := xorMany (f := f) (V := V) hpa hpb
    obtain ⟨z', hw, ew⟩ := xorMany (f := f) (V := V) hv hz
    refine CplB.bind' (CplB.lift (Q := (· = v)) ev rfl) ?_
    rintro _ rfl
    refine CplB.bind' (CplB.lift (Q := (· = z')) ew rfl) ?_
    rintro _ rfl
    refine CplB.pure fun w j => ?_
    unfold resize
    simp [ha w j]
    omega

end SpdzCpl

end Verif
