import Verif.Proof.S3LockCircuit

/-!
# Lock-step runs of the query of the Swift3 backend, up to the opening

Only sizes and the (public) masks matter.
-/

namespace Verif

namespace S3Cpl

open SpdzCpl (Sh Rows idx_ok)

variable {f : Bytes → List Bool} {H : Hash} {K L n m : Nat} {i : Party} {v : Proto (S3St (idealPrg f) K) Unit}

attribute [local irreducible] hammingDistance commonBits encode

theorem maskedVecs_ok {A : Type} (zero : A) {a : List A} (ha : a.length = irisCodeSize) : ∀ (n : Nat) (l : List (List A × IrisCodeArray)),
    l.length = n → (∀ p ∈ l, p.1.length = irisCodeSize) →
    ∃ r : List (List A) × List (List A), r.1.length = n ∧ r.2.length = n ∧ maskedVecs zero a l = .ok r := by
  intro n
  induction n with
  | zero =>
    intro l hl _
    rw [List.length_eq_zero_iff.1 hl]
    exact ⟨([], []), rfl, rfl, rfl⟩
  | succ n ih =>
    intro l hl hb
    obtain ⟨⟨b, mask⟩, l, rfl⟩ := List.exists_cons_of_length_eq_add_one hl
    obtain ⟨r, h1, h2, er⟩ := ih l (by simpa using hl) fun p hp => hb p (by simp [hp])
    refine ⟨(zeroUnmasked zero a mask.bits :: r.1, zeroUnmasked zero b mask.bits :: r.2), by simp [h1], by simp [h2], ?_⟩
    rw [maskedVecs, if_neg (by
      have := hb (b, mask) (by simp)
      rw [ha, this]
      simp), er]
    rfl

theorem maskedDotMany {a : Bool → Party → List (S3Share K)} {b : Bool → Party → List (List (S3Share K))} {masks : List IrisCodeArray}
    (ha : Sh irisCodeSize a) (hb : Rows n irisCodeSize b) (hm : masks.length = n) :
    Cpl3 (f := f) (K := K) i (gateBits i (K * n))
      (fun w j => defaultMaskedDotMany (S3Share.zero K) (Swift3.dotMany j) (a w j) (b w j) masks) (Sh n) := by
  unfold defaultMaskedDotMany
  have h : ∀ w j, ∃ r : List (List (S3Share K)) × List (List (S3Share K)), r.1.length = n ∧ r.2.length = n ∧
      maskedVecs (S3Share.zero K) (a w j) ((b w j).zip masks) = .ok r := fun w j =>
    maskedVecs_ok _ (ha w j) n _ (by rw [List.length_zip, (hb w j).1, hm, Nat.min_self]) fun p hp => (hb w j).2 _ (List.of_mem_zip hp).1
  choose r h1 h2 er using h
  refine Cpl3.bind' (Cpl3.lift er rfl) fun r' hr' => ?_
  subst hr'
  exact s3DotMany_cpl h1 h2

theorem hammingPost_ok (hK : 15 ≤ K) (signed : Bool) (j : Party) {a b : List (S3Share K)} (ha : a.length = irisCodeSize)
    (hb : b.length = irisCodeSize) (mask : IrisCodeArray) (dot : S3Share K) :
    ∃ r, Iris.hammingPost (Swift3.ops (idealPrg f) H K signed v j) a b mask dot = .ok r := by
  have hpos : irisCodeSize ≠ 0 := by decide
  have hne : ¬ (a.isEmpty ∨ a.length ≠ b.length) := by
    rw [ha, hb, List.isEmpty_iff]
    rintro (rfl | h)
    · exact hpos ha.symm
    · exact h rfl
  have h3 : S3Share.filterReduceAddTwice a b mask = .ok (S3Share.filterSum a mask, S3Share.filterSum b mask) := by
    unfold S3Share.filterReduceAddTwice
    rw [if_neg hne]
  refine ⟨((S3Share.filterSum a mask).add (S3Share.filterSum b mask)).sub (dot.mulConst (BitVec.ofNat K 2)), ?_⟩
  unfold Iris.hammingPost
  rw [if_neg hne]
  show (S3Share.filterReduceAddTwice a b mask >>= fun r => tryFromUsize signed K 2 >>= fun two => _) = _
  rw [h3, (MpcLawful.tryFrom_ok hK signed (c := 2) (by omega)).1]
  rfl

theorem hammingLoop_ok (hK : 15 ≤ K) (signed : Bool) (j : Party) {a : List (S3Share K)} (ha : a.length = irisCodeSize) :
    ∀ (n : Nat) (l : List ((List (S3Share K) × S3Share K) × IrisCodeArray)), l.length = n →
    (∀ p ∈ l, p.1.1.length = irisCodeSize) →
    ∃ r, r.length = n ∧ Iris.hammingLoop (Swift3.ops (idealPrg f) H K signed v j) a l = .ok r := by
  intro n
  induction n with
  | zero =>
    intro l hl _
    rw [List.length_eq_zero_iff.1 hl]
    exact ⟨[], rfl, rfl⟩
  | succ n ih =>
    intro l hl hb
    obtain ⟨⟨⟨b, dot⟩, mask⟩, l, rfl⟩ := List.exists_cons_of_length_eq_add_one hl
    obtain ⟨r, hr⟩ := hammingPost_ok (H := H) (v := v) hK signed j ha (hb ((b, dot), mask) (by simp)) mask dot
    obtain ⟨rs, hrs, ers⟩ := ih l (by simpa using hl) fun p hp => hb p (by simp [hp])
    exact ⟨r :: rs, by simp [hrs], by
      rw [Iris.hammingLoop, hr, ers]; rfl⟩

theorem hammingMany (hK : 15 ≤ K) (signed : Bool) {a : Bool → Party → List (S3Share K)}
    {b : Bool → Party → List (List (S3Share K))} {masks : List IrisCodeArray} (ha : Sh irisCodeSize a)
    (hb : Rows n irisCodeSize b) (hm : masks.length = n) :
    Cpl3 (f := f) (K := K) i (gateBits i (K * n)) (fun w j => Iris.hammingMany (Swift3.ops (idealPrg f) H K signed v j) (a w j) (b w j) masks) (Sh n) := by
  unfold Iris.hammingMany
  refine Cpl3.bind_local (maskedDotMany ha hb hm) fun d hd => ?_
  have h : ∀ w j, ∃ r, r.length = n ∧
      Iris.hammingLoop (Swift3.ops (idealPrg f) H K signed v j) (a w j) (((b w j).zip (d w j)).zip masks) = .ok r := fun w j =>
    hammingLoop_ok hK signed j (ha w j) n _ (by simp [(hb w j).1, hd w j, hm]) fun p hp =>
      (hb w j).2 _ (List.of_mem_zip (List.of_mem_zip hp).1).1
  choose r hr er using h
  exact Cpl3.lift er hr

theorem diffLoop_ok (hK : 15 ≤ K) (signed : Bool) (j : Party) : ∀ (n : Nat) (l : List (S3Share K × Nat)),
    l.length = n → (∀ p ∈ l, matchThreshold p.2 ≤ 12800) →
    ∃ r, r.length = n ∧ ∀ st, Iris.diffLoop (Swift3.ops (idealPrg f) H K signed v j) st l = .ok r := by
  intro n
  induction n with
  | zero =>
    intro l hl _
    rw [List.length_eq_zero_iff.1 hl]
    exact ⟨[], rfl, fun _ => rfl⟩
  | succ n ih =>
    intro l hl hb
    obtain ⟨⟨h, len⟩, l, rfl⟩ := List.exists_cons_of_length_eq_add_one hl
    obtain ⟨rs, hrs, ers⟩ := ih l (by simpa using hl) fun p hp => hb p (by simp [hp])
    have ht := (MpcLawful.tryFrom_ok hK signed (hb (h, len) (by simp))).1
    refine ⟨h.subConst (BitVec.ofNat K (matchThreshold len)) :: rs, by simp [hrs], fun st => ?_⟩
    rw [Iris.diffLoop, ers]
    unfold Iris.getCmpDiff
    show ((tryFromUsize signed K (matchThreshold len) >>= fun t => _) >>= fun d => _) = _
    rw [ht]
    rfl

theorem compareIrisMany (i : Party) (hK : 15 ≤ K) (signed : Bool) (n : Nat) (hn : n ≠ 0) : ∃ F, ∀ (q : IrisCode)
    (cs : List IrisCode) (a : Bool → Party → List (S3Share K)) (b : Bool → Party → List (List (S3Share K))), cs.length = n →
    (∀ c ∈ cs, 8960 ≤ commonBits q c) → Sh irisCodeSize a → Rows n irisCodeSize b →
    Cpl3 (f := f) (K := K) i F (fun w j => Iris.compareIrisMany (Swift3.ops (idealPrg f) H K signed v j) (a w j) (b w j) q.mask (cs.map fun c => c.mask)) (Sh n) := by
  obtain ⟨F, hF⟩ := getMsbMany (f := f) (K := K) i n
  refine ⟨gateBits i (K * n) + F, fun q cs a b hcs hm ha hb => ?_⟩
  unfold Iris.compareIrisMany
  refine Cpl3.ite_neg (fun w j => by simp [(hb w j).1, hcs, hn]) ?_
  refine Cpl3.bind' (Cpl3.lift (Q := (· = fun _ _ => cs.map fun c => q.mask.and c.mask)) (fun w j => MpcLawful.combineAll_ok q cs hm) rfl) ?_
  rintro _ rfl
  refine Cpl3.bind (hammingMany hK signed ha hb (by simp [hcs])) fun d hd => ?_
  unfold Iris.compareThresholdMany
  refine Cpl3.ite_neg (fun w j => by simp [hd w j, hcs]) ?_
  have h : ∀ w j, ∃ r, r.length = n ∧ ∀ st, Iris.diffLoop (Swift3.ops (idealPrg f) H K signed v j) st
      ((d w j).zip ((cs.map fun c => q.mask.and c.mask).map IrisCodeArray.countOnes)) = .ok r := fun w j =>
    diffLoop_ok hK signed j n _ (by simp [hd w j, hcs]) fun p hp => by
      have := (List.of_mem_zip hp).2
      rw [List.map_map] at this
      obtain ⟨c, -, hc⟩ := List.mem_map.1 this
      rw [← hc]
      show matchThreshold (q.mask.and c.mask).countOnes ≤ 12800
      rw [countOnes_masks]
      exact MpcLawful.threshold_le q c
  choose r hr er using h
  refine Cpl3.congr (q := fun w j => Swift3.getMsbMany j (r w j)) (fun w j => ?_) (hF r hr)
  funext st
  show (Proto.lift (Iris.diffLoop (Swift3.ops (idealPrg f) H K signed v j) st _) >>= fun ds => _) st = _
  rw [er]
  rfl

theorem chunkLoop (i : Party) (hK : 15 ≤ K) (signed : Bool) : ∀ (ns : List Nat), (∀ n ∈ ns, n ≠ 0) → ∃ F, ∀ (q : IrisCode)
    (css : List (List IrisCode)) (a : Bool → Party → List (S3Share K)) (b : Bool → Party → List (List (List (S3Share K)))),
    css.map List.length = ns → (∀ cs ∈ css, ∀ c ∈ cs, 8960 ≤ commonBits q c) → Sh irisCodeSize a →
    (∀ w j, (b w j).map List.length = ns ∧ ∀ l ∈ b w j, ∀ x ∈ l, x.length = irisCodeSize) →
    Cpl3 (f := f) (K := K) i F (fun w j => Iris.chunkLoop (Swift3.ops (idealPrg f) H K signed v j) (a w j) q.mask
      ((b w j).zip (css.map fun cs => cs.map fun c => c.mask))) (Sh ns.sum) := by
  intro ns
  induction ns with
  | nil =>
    intro _
    refine ⟨0, fun q css a b hcs _ _ hb => ?_⟩
    refine Cpl3.congr (q := fun _ _ => Pure.pure []) (fun w j => ?_) (Cpl3.pure (a := fun _ _ => []) fun _ _ => rfl)
    rw [List.map_eq_nil_iff.1 (hb w j).1]; rfl
  | cons n ns ih =>
    intro hns
    obtain ⟨F1, hF1⟩ := compareIrisMany (f := f) (H := H) (v := v) i hK signed n (hns n (by simp))
    obtain ⟨F2, hF2⟩ := ih fun n hn => hns n (by simp [hn])
    refine ⟨F1 + F2, fun q css a b hcs hm ha hb => ?_⟩
    obtain ⟨cs, css, rfl, h2, h3⟩ := List.map_eq_cons_iff.1 hcs
    have hd : ∀ w j, ∃ x r, b w j = x :: r ∧ x.length = n ∧ r.map List.length = ns := fun w j => by
      obtain ⟨x, r, h1, h2, h3⟩ := List.map_eq_cons_iff.1 (hb w j).1
      exact ⟨x, r, h1, h2, h3⟩
    choose x r hx hxn hr using hd
    simp only [hx, List.map_cons, List.zip_cons_cons, Iris.chunkLoop]
    refine Cpl3.bind (hF1 q cs a x h2 (hm cs (by simp)) ha fun w j => ⟨hxn w j, (hb w j).2 _ (by simp [hx])⟩) fun y hy => ?_
    refine Cpl3.bind_local (hF2 q css a r h3 (fun c hc => hm c (by simp [hc])) ha
      fun w j => ⟨hr w j, fun l hl => (hb w j).2 l (by simp [hx, hl])⟩) fun z hz => Cpl3.pure fun w j => ?_
    simp [hy w j, hz w j]

theorem queryBody (i : Party) (hK : 15 ≤ K) (signed : Bool) {c : Nat} (hc : c ≠ 0) (n : Nat) (hn : n ≠ 0) (hov : (n + c) * (2 * K) < 2 ^ 64) :
    ∃ F, ∀ (q : IrisCode) (db : List IrisCode) (a : Bool → Party → List (S3Share K)) (b : Bool → Party → List (List (S3Share K))),
    db.length = n → (∀ c ∈ db, 8960 ≤ commonBits q c) → Sh irisCodeSize a → Rows n irisCodeSize b →
    Cpl3 (f := f) (K := K) i F (fun w j => Iris.queryBody (Swift3.ops (idealPrg f) H K signed v j) (a w j) (b w j) q.mask (db.map fun c => c.mask) c)
      (fun _ => True) := by
  have hns : ∀ m ∈ (chunksOf c (List.replicate n ())).map List.length, m ≠ 0 := by
    intro m hm
    obtain ⟨ch, hch, rfl⟩ := List.mem_map.1 hm
    simpa using MpcLawful.mem_chunksOf_ne c _ ch hch
  obtain ⟨F1, hF1⟩ := chunkLoop (f := f) (H := H) (v := v) i hK signed _ hns
  obtain ⟨F2, hF2⟩ := reduceBinaryOr (f := f) (K := K) i hc n hn
  refine ⟨F1 + F2, fun q db a b hdb hm ha hb => ?_⟩
  unfold Iris.queryBody
  refine Cpl3.bind' (Cpl3.lift (Q := fun _ => True) (fun w j => by
    rw [(hb w j).1]
    exact MpcLawful.numAndTriples_ok hK hc hov) trivial) fun _ _ => ?_
  refine Cpl3.bind' (Cpl3.pure (Q := fun _ => True) trivial) fun _ _ => ?_
  refine Cpl3.bind' (Cpl3.lift (Q := (· = fun w j => chunksOf c (b w j))) (fun w j => by simp [chunksE, hc]) rfl) ?_
  rintro _ rfl
  refine Cpl3.bind' (Cpl3.lift (Q := (· = fun _ _ => (chunksOf c db).map fun cs => cs.map fun c => c.mask))
    (fun w j => by simp [chunksE, hc, MpcLawful.chunksOf_map']) rfl) ?_
  rintro _ rfl
  refine Cpl3.bind (hF1 q (chunksOf c db) a _ (Uni.chunks_lengths _ _ _ (by simp [hdb])) ?_ ha fun w j => ⟨?_, ?_⟩) fun r hr => hF2 r ?_
  · intro cs hcs x hx
    exact hm x (MpcLawful.mem_of_mem_chunksOf hcs hx)
  · exact Uni.chunks_lengths _ _ _ (by simp [(hb w j).1])
  · intro l hl x hx
    exact (hb w j).2 x (MpcLawful.mem_of_mem_chunksOf hl hx)
  · intro w j
    rw [hr w j, ← List.length_flatten, chunksOf_flatten hc]
    simp

end S3Cpl

end Verif
