import Verif.Proof.S3LockAnd
import Verif.Proof.SpdzLockCircuit

/-!
# Lock-step runs of the circuits of the Swift3 backend

Only sizes matter, since every message is masked.
-/

namespace Verif

namespace S3Cpl

open SpdzCpl (Sh idx_ok)

variable {f : Bytes → List Bool} {K L n m : Nat} {i : Party}

theorem mapLists_length {L' : Nat} {g : List (BitVec L) → List (BitVec L')} (hg : ∀ l, l.length = n → (g l).length = m)
    {l : List (S3Share L)} (hl : l.length = n) : (S3Share.mapLists g l).length = m := by
  unfold S3Share.mapLists
  rw [List.length_zipWith, List.length_zip, hg _ (by simpa using hl), hg _ (by simpa using hl), hg _ (by simpa using hl),
    Nat.min_self, Nat.min_self]

theorem xorMany {a b : Bool → Party → List (S3Share L)} (ha : Sh n a) (hb : Sh n b) :
    ∃ c : Bool → Party → List (S3Share L), Sh n c ∧ ∀ w j, ((Swift3.fam (idealPrg f) K j).ops L).xorMany (a w j) (b w j) = .ok (c w j) :=
  ⟨fun w j => List.zipWith S3Share.xor (a w j) (b w j), fun w j => by simp [ha w j, hb w j], fun w j => by
    unfold BinOps.xorMany
    rw [if_neg (by simp [ha w j, hb w j])]
    rfl⟩

theorem andMany {a b : Bool → Party → List (S3Share L)} (ha : Sh n a) (hb : Sh n b) :
    Cpl3 (f := f) (K := K) i (gateBits i (L * n)) (fun w j => ((Swift3.fam (idealPrg f) K j).ops L).andMany (a w j) (b w j)) (Sh n) :=
  s3AndMany_cpl ha hb

theorem or {a b : Bool → Party → S3Share L} :
    Cpl3 (f := f) (K := K) i (gateBits i (L * 1)) (fun w j => ((Swift3.fam (idealPrg f) K j).ops L).or (a w j) (b w j)) (fun _ => True) := by
  unfold BinOps.or
  exact Cpl3.bind_local (s3And_cpl (a := a) (b := b)) fun c _ => Cpl3.pure trivial

theorem orMany {a b : Bool → Party → List (S3Share L)} (ha : Sh n a) (hb : Sh n b) :
    Cpl3 (f := f) (K := K) i (gateBits i (L * n)) (fun w j => ((Swift3.fam (idealPrg f) K j).ops L).orMany (a w j) (b w j)) (Sh n) := by
  unfold BinOps.orMany
  refine Cpl3.ite_neg (fun w j => by simp [ha w j, hb w j]) ?_
  refine Cpl3.bind_local (andMany ha hb) fun c hc => ?_
  obtain ⟨d, hd, ed⟩ := xorMany (f := f) (K := K) ha hb
  obtain ⟨e, he, ee⟩ := xorMany (f := f) (K := K) hc hd
  exact Cpl3.bind' (Cpl3.lift ed rfl) fun d' hd' => hd' ▸ Cpl3.lift ee he

theorem orChunks : ∀ (ns : List Nat) {a b : Bool → Party → List (List (S3Share L))},
    (∀ w j, (a w j).map List.length = ns) → (∀ w j, (b w j).map List.length = ns) →
    Cpl3 (f := f) (K := K) i (ns.map fun n => gateBits i (L * n)).sum (fun w j => ((Swift3.fam (idealPrg f) K j).ops L).orChunks ((a w j).zip (b w j))) (Sh ns.sum) := by
  intro ns
  induction ns with
  | nil =>
    intro a b ha hb
    refine Cpl3.congr (q := fun _ _ => Pure.pure []) (fun w j => ?_) (Cpl3.pure (a := fun _ _ => []) fun _ _ => rfl)
    rw [List.map_eq_nil_iff.1 (ha w j)]; rfl
  | cons n ns ih =>
    intro a b ha hb
    have hc : ∀ w j, ∃ x r, a w j = x :: r ∧ x.length = n ∧ r.map List.length = ns := fun w j => by
      obtain ⟨x, r, h1, h2, h3⟩ := List.map_eq_cons_iff.1 (ha w j)
      exact ⟨x, r, h1, h2, h3⟩
    have hd : ∀ w j, ∃ x r, b w j = x :: r ∧ x.length = n ∧ r.map List.length = ns := fun w j => by
      obtain ⟨x, r, h1, h2, h3⟩ := List.map_eq_cons_iff.1 (hb w j)
      exact ⟨x, r, h1, h2, h3⟩
    choose x r hx hxn hr using hc
    choose y s hy hyn hs using hd
    simp only [hx, hy, List.zip_cons_cons, BinOps.orChunks]
    refine Cpl3.bind (n := gateBits i (L * n)) (orMany hxn hyn) fun c hc => ?_
    refine Cpl3.bind_local (ih hr hs) fun d hd => Cpl3.pure fun w j => ?_
    simp [hc w j, hd w j]

theorem orTreeLoop (i : Party) (L : Nat) {c : Nat} (hc : c ≠ 0) (n : Nat) (hn : n ≠ 0) : ∃ N, ∀ (a : Bool → Party → List (S3Share L)),
    Sh n a → Cpl3 (f := f) (K := K) i N (fun w j => ((Swift3.fam (idealPrg f) K j).ops L).orTreeLoop c n (a w j)) (Sh 1) := by
  induction n using Nat.strong_induction_on with
  | _ n ih =>
    by_cases hlt : n > 1
    · obtain ⟨F', hF'⟩ := ih (n / 2 + n % 2) (by omega) (by omega)
      refine ⟨(((chunksOf c (List.replicate (n / 2) ())).map List.length).map fun n => gateBits i (L * n)).sum + F', fun a ha => ?_⟩
      unfold BinOps.orTreeLoop
      simp only [hlt, if_true]
      refine Cpl3.ite_neg (fun w j => by rw [ha w j]; omega) ?_
      refine Cpl3.bind' (Cpl3.lift (a := fun w j => chunksOf c ((a w j).take (n / 2))) (fun w j => by simp [chunksE, hc]) rfl) ?_
      rintro _ rfl
      refine Cpl3.bind' (Cpl3.lift (a := fun w j => chunksOf c (((a w j).drop (n / 2)).take (n / 2))) (fun w j => by simp [chunksE, hc]) rfl) ?_
      rintro _ rfl
      refine Cpl3.bind (orChunks _ (fun w j => ?_) fun w j => ?_) fun r hr => ?_
      · exact Uni.chunks_lengths _ _ _ (by simp [ha w j]; omega)
      · exact Uni.chunks_lengths _ _ _ (by simp [ha w j]; omega)
      · refine hF' _ fun w j => ?_
        rw [List.length_append, hr w j, ← List.length_flatten, chunksOf_flatten hc]
        simp [ha w j]; omega
    · refine ⟨0, fun a ha => ?_⟩
      unfold BinOps.orTreeLoop
      simp only [hlt, if_false]
      exact Cpl3.pure fun w j => by rw [ha w j]; omega

theorem orTree (i : Party) (L : Nat) {c : Nat} (hc : c ≠ 0) (n : Nat) (hn : n ≠ 0) : ∃ N, ∀ (a : Bool → Party → List (S3Share L)),
    Sh n a → Cpl3 (f := f) (K := K) i N (fun w j => ((Swift3.fam (idealPrg f) K j).ops L).orTree c (a w j)) (fun _ => True) := by
  obtain ⟨F, hF⟩ := orTreeLoop (f := f) (K := K) i L hc n hn
  refine ⟨F, fun a ha => ?_⟩
  unfold BinOps.orTree
  simp only [ha _ _]
  refine Cpl3.bind_local (hF a ha) fun r hr => ?_
  obtain ⟨x, -, ex⟩ := idx_ok hr Nat.one_pos
  exact Cpl3.lift ex trivial

theorem reduceHalf {T : Nat} (U : Nat) {a : Bool → Party → S3Share T} :
    Cpl3 (f := f) (K := K) i (gateBits i (U * 1)) (fun w j => (Swift3.fam (idealPrg f) K j).reduceHalf U (a w j)) (fun _ => True) := by
  unfold BinFam.reduceHalf
  have h2 : Sh 2 fun w j => (Swift3.fam (idealPrg f) K j).mapLists
      (fun l => l.flatMap fun x => [(splitHalves U x).1, (splitHalves U x).2]) [a w j] := fun w j =>
    mapLists_length (n := 1) (fun l hl => by
      obtain ⟨x, rfl⟩ := List.length_eq_one_iff.1 hl; rfl) rfl
  obtain ⟨x, -, ex⟩ := idx_ok h2 (k := 0) (by omega)
  obtain ⟨y, -, ey⟩ := idx_ok h2 (k := 1) (by omega)
  exact Cpl3.bind' (Cpl3.lift (Q := fun _ => True) ex trivial) fun x' _ =>
    Cpl3.bind' (Cpl3.lift (Q := fun _ => True) ey trivial) fun y' _ => or

theorem reduceLoop (i : Party) (e : Nat) : ∃ N, ∀ (a : Bool → Party → List (S3Share 1)), Sh (2 ^ e) a →
    Cpl3 (f := f) (K := K) i N (fun w j => (Swift3.fam (idealPrg f) K j).reduceLoop (2 ^ e) (a w j)) (Sh 1) := by
  induction e with
  | zero =>
    refine ⟨0, fun a ha => ?_⟩
    exact Cpl3.congr (q := fun w j => Pure.pure (a w j)) (fun w j => by rw [BinFam.reduceLoop]; rfl) (Cpl3.pure ha)
  | succ e ih =>
    obtain ⟨F, hF⟩ := ih
    refine ⟨gateBits i (1 * 2 ^ e) + F, fun a ha => ?_⟩
    have h2 : 2 ^ (e + 1) / 2 = 2 ^ e := by rw [pow_succ]; omega
    have hpos := Nat.two_pow_pos e
    refine Cpl3.congr (fun w j => by rw [BinFam.reduceLoop, if_neg (by rw [pow_succ]; omega)]) ?_
    simp only [h2]
    refine Cpl3.bind (n := gateBits i (1 * (2 ^ e))) (orMany (fun w j => ?_) fun w j => ?_) fun d hd => hF d hd
    · simp only [List.length_take, ha w j, pow_succ]; omega
    · simp only [List.length_drop, ha w j, pow_succ]; omega

theorem reduceOrU8 (i : Party) : ∃ N, ∀ (a : Bool → Party → S3Share 8),
    Cpl3 (f := f) (K := K) i N (fun w j => (Swift3.fam (idealPrg f) K j).reduceOrU8 (a w j)) (fun _ => True) := by
  obtain ⟨F, hF⟩ := reduceLoop (f := f) (K := K) i 3
  refine ⟨F, fun a => ?_⟩
  unfold BinFam.reduceOrU8
  refine Cpl3.bind_local (hF _ fun w j => mapLists_length (n := 1) (fun l hl => by
      obtain ⟨x, rfl⟩ := List.length_eq_one_iff.1 hl; simp) rfl) fun d hd => ?_
  obtain ⟨x, -, ex⟩ := idx_ok hd Nat.one_pos
  exact Cpl3.lift ex trivial

theorem reduceOrU128 (i : Party) : ∃ N, ∀ (a : Bool → Party → S3Share 128),
    Cpl3 (f := f) (K := K) i N (fun w j => (Swift3.fam (idealPrg f) K j).reduceOrU128 (a w j)) (fun _ => True) := by
  obtain ⟨F, hF⟩ := reduceOrU8 (f := f) (K := K) i
  refine ⟨gateBits i (64 * 1) + (gateBits i (32 * 1) + (gateBits i (16 * 1) + (gateBits i (8 * 1) + F))), fun a => ?_⟩
  unfold BinFam.reduceOrU128
  exact Cpl3.bind (reduceHalf 64) fun _ _ => Cpl3.bind (reduceHalf 32) fun _ _ =>
    Cpl3.bind (reduceHalf 16) fun _ _ => Cpl3.bind (reduceHalf 8) fun _ _ => hF _

theorem reduceBinaryOr (i : Party) {c : Nat} (hc : c ≠ 0) (n : Nat) (hn : n ≠ 0) : ∃ N, ∀ (a : Bool → Party → List (S3Share 1)),
    Sh n a → Cpl3 (f := f) (K := K) i N (fun w j => Swift3.reduceBinaryOr j (a w j) c) (fun _ => True) := by
  obtain ⟨F, hF⟩ := orTree (f := f) (K := K) i 128 hc ((n + 127) / 128) (by omega)
  obtain ⟨F', hF'⟩ := reduceOrU128 (f := f) (K := K) i
  refine ⟨F + F', fun a ha => ?_⟩
  unfold Swift3.reduceBinaryOr BinFam.reduceBinaryOr
  refine Cpl3.bind (hF _ fun w j => ?_) fun r _ => hF' r
  unfold BinFam.pack
  rw [List.length_flatMap, List.map_congr_left (g := fun _ => 1), List.map_const', List.sum_replicate_nat,
    chunksOf_length (by decide), ha w j, Nat.mul_one]
  · rfl
  · intro ch _
    exact mapLists_length (g := fun l => [packWord 128 l]) (m := 1) (n := ch.length) (fun _ _ => rfl) rfl

/-! ## The most significant bit -/

/-- `xor_many` of vectors of the same length. -/
theorem liftXor {α : Type} {N : Nat} {a b : Bool → Party → List (S3Share L)} {k : Bool → Party → List (S3Share L) → Proto (S3St (idealPrg f) K) α}
    {Q : (Bool → Party → α) → Prop} (ha : Sh n a) (hb : Sh n b)
    (h : ∀ c, Sh n c → Cpl3 i N (fun w j => k w j (c w j)) Q) :
    Cpl3 i N (fun w j => Proto.lift (((Swift3.fam (idealPrg f) K j).ops L).xorMany (a w j) (b w j)) >>= k w j) Q := by
  obtain ⟨d, hd, ed⟩ := xorMany (f := f) (K := K) ha hb
  exact Cpl3.bind' (Cpl3.lift ed hd) fun d' hd' => h d' hd'

theorem shl {a : Bool → Party → List (S3Share L)} (ha : Sh n a) (k : Nat) :
    Sh n fun w j => ((Swift3.fam (idealPrg f) K j).ops L).shlMany (a w j) k := fun w j => by
  unfold BinOps.shlMany
  rw [List.length_map, ha w j]

theorem koggeLoopMany (n : Nat) : ∀ (r : Nat) (k : Nat) {p g : Bool → Party → List (S3Share L)}, Sh n p → Sh n g →
    Cpl3 (f := f) (K := K) i (r * gateBits i (L * (n + n)))
      (fun w j => ((Swift3.fam (idealPrg f) K j).ops L).koggeLoopMany n r k (p w j) (g w j)) fun c => Sh n fun w j => (c w j).2 := by
  intro r
  induction r with
  | zero =>
    intro k p g hp hg
    rw [Nat.zero_mul]
    exact Cpl3.pure (a := fun w j => (p w j, g w j)) hg
  | succ r ih =>
    intro k p g hp hg
    unfold BinOps.koggeLoopMany
    rw [Nat.succ_mul, Nat.add_comm]
    refine Cpl3.bind (andMany (n := n + n) (fun w j => ?_) fun w j => ?_) fun c hc => ?_
    · rw [List.length_append, hp w j]
    · rw [List.length_append]
      exact congr (congrArg _ (shl (f := f) (K := K) hg (2 ^ k) w j)) (shl (f := f) (K := K) hp (2 ^ k) w j)
    · refine liftXor (n := n) hg (fun w j => ?_) fun x hx => ih (k + 1) (fun w j => ?_) hx
      · rw [List.length_take, hc w j]; omega
      · rw [List.length_drop, hc w j]; omega

theorem binaryAdd3Many (i : Party) (L n : Nat) : ∃ N, ∀ (a b c : Bool → Party → List (S3Share L)), Sh n a → Sh n b → Sh n c →
    Cpl3 (f := f) (K := K) i N (fun w j => ((Swift3.fam (idealPrg f) K j).ops L).binaryAdd3Many L (a w j) (b w j) (c w j)) (Sh n) := by
  refine ⟨gateBits i (L * n) + (gateBits i (L * n) + (ceilLog2 L * gateBits i (L * (n + n)) + 0)), fun a b c ha hb hc => ?_⟩
  unfold BinOps.binaryAdd3Many
  simp only [ha _ _]
  refine Cpl3.ite_neg (fun w j => by rw [hb w j, hc w j]; simp) ?_
  refine liftXor hb hc fun x23 h23 => ?_
  refine liftXor ha h23 fun s hs => ?_
  refine liftXor ha hc fun x13 h13 => ?_
  refine Cpl3.bind (andMany h13 h23) fun x hx => ?_
  refine liftXor hx hc fun y hy => ?_
  refine liftXor hs (shl hy 1) fun p hp => ?_
  refine Cpl3.bind (andMany hs (shl hy 1)) fun g hg => ?_
  refine Cpl3.bind (koggeLoopMany n (ceilLog2 L) 0 hp hg) fun z hz => ?_
  obtain ⟨v, hv, ev⟩ := xorMany (f := f) (K := K) hp (shl (f := f) (K := K) hz 1)
  exact Cpl3.lift ev hv

theorem getMsbMany (i : Party) (n : Nat) : ∃ N, ∀ (a : Bool → Party → List (S3Share K)), Sh n a →
    Cpl3 (f := f) (K := K) i N (fun w j => Swift3.getMsbMany j (a w j)) (Sh n) := by
  obtain ⟨N, hN⟩ := binaryAdd3Many (f := f) (K := K) i K n
  refine ⟨N, fun a ha => ?_⟩
  unfold Swift3.getMsbMany Swift3.a2bMany
  refine Cpl3.bind_local (hN _ _ _ (fun w j => ?_) (fun w j => ?_) fun w j => ?_) fun c hc => Cpl3.pure fun w j => ?_
  all_goals rw [List.length_map]
  · exact ha w j
  · exact ha w j
  · exact ha w j
  · exact hc w j

end S3Cpl

end Verif
