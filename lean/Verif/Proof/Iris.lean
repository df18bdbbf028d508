import Verif.Model.Iris
import Verif.Proof.Fail
import Verif.Proof.Distance
import Verif.Proof.Aby3

/-! # The iris protocol over any lawful backend -/

namespace Verif

variable {σ A B : Type} {K V : Nat}

/-- The laws a backend must satisfy for the iris protocol. `RelA x s`: the shares `s` represent `x` in the ring
of `V` bits used for the arithmetic (`V = K` except for SpdzWise); `Inv n u st`: joint invariant, where `n` AND
gates have been preprocessed and `u` AND-gate bits used; `msbCost`, `orCost`: AND-gate bits used by an operation;
`CsOk`: chunk sizes the backend can handle. -/
structure MpcLawful (ops : Party → MpcOps σ A B K) (RelA : BitVec V → (Party → A) → Prop)
    (RelB : BitVec 1 → (Party → B) → Prop) (Pre Post : (Party → σ) → Prop) (Inv : Nat → Nat → (Party → σ) → Prop)
    (Cap : Nat → Nat → Prop) (msbCost orCost : Nat → Nat) (CsOk : Nat → Prop) (dotCost : Nat → Nat := fun _ => 0) :
    Prop where
  maskedDotMany : ∀ {n u st} {xs : List (BitVec V)} {a : Party → List A} {yss : List (List (BitVec V))}
    {masks : List IrisCodeArray} {b : Party → List (List A)}, Inv n u st → xs.length = irisCodeSize →
    Rels RelA xs a → Rels (Rels RelA) yss b → (∀ ys ∈ yss, ys.length = irisCodeSize) → yss.length = masks.length →
    yss ≠ [] →
    WPS (fun i => (ops i).maskedDotMany (a i) (b i) masks) st
      (fun c st' => Rels RelA (List.zipWith (fun ys (m : IrisCodeArray) =>
        maskedSum (IrisCodeArray.bitList m) (List.zipWith (· * ·) xs ys)) yss masks) c ∧ Inv n (u + dotCost yss.length) st')
  filter : ∀ {p q m : IrisCodeArray} {a b : Party → List A}, Rels RelA (encode V p) a → Rels RelA (encode V q) b →
    ∃ c d : Party → A, RelA (maskedSum (IrisCodeArray.bitList m) (encode V p)) c ∧
      RelA (maskedSum (IrisCodeArray.bitList m) (encode V q)) d ∧
      ∀ i, (ops i).filterReduceAddTwice (a i) (b i) m = .ok (c i, d i)
  add : ∀ {x y a b}, RelA x a → RelA y b → RelA (x + y) (fun i => (ops i).add (a i) (b i))
  sub : ∀ {x y a b}, RelA x a → RelA y b → RelA (x - y) (fun i => (ops i).sub (a i) (b i))
  mulConst : ∀ {x a} (c : BitVec K), c.toNat < 2 ^ (K - 1) → RelA x a →
    RelA (x * BitVec.ofNat V c.toNat) (fun i => (ops i).mulConst (a i) c)
  subConst : ∀ {n u st x a} (c : BitVec K), c.toNat < 2 ^ (K - 1) → Inv n u st → RelA x a →
    RelA (x - BitVec.ofNat V c.toNat) (fun i => (ops i).subConst (st i) (a i) c)
  getMsb : ∀ {n u st x a}, Inv n u st → RelA x a →
    WPS (fun i => (ops i).getMsb (a i)) st
      (fun r st' => RelB (bitOf (x.setWidth K).msb) r ∧ ∃ u', Inv n u' st')
  getMsbMany : ∀ {n u st} {xs : List (BitVec V)} {a : Party → List A}, xs ≠ [] → Inv n u st → Rels RelA xs a →
    WPS (fun i => (ops i).getMsbMany (a i)) st
      (fun r st' => Rels RelB (xs.map fun x => bitOf (x.setWidth K).msb) r ∧ Inv n (u + msbCost xs.length) st')
  reduceBinaryOr : ∀ {n u st} {bits : List (BitVec 1)} {a : Party → List B} {cs : Nat}, cs ≠ 0 → CsOk cs → bits ≠ [] →
    Inv n u st → Rels RelB bits a →
    WPS (fun i => (ops i).reduceBinaryOr (a i) cs) st
      (fun r st' => RelB (bitOf (bits.any bitVal)) r ∧ Inv n (u + orCost bits.length) st')
  precompute : ∀ {n st}, Pre st → WPS (fun i => (ops i).precompute n) st (fun _ st' => Inv n 0 st')
  verify : ∀ {n u st}, Inv n u st → Cap n u → WPS (fun i => (ops i).verify) st (fun _ st' => Post st')
  openBit : ∀ {st x s}, Post st → RelB x s →
    WPS (fun i => (ops i).openBit (s i)) st (fun r st' => (∀ i, r i = bitVal x) ∧ Post st')

namespace MpcLawful

variable {ops : Party → MpcOps σ A B K} {RelA : BitVec V → (Party → A) → Prop}
  {RelB : BitVec 1 → (Party → B) → Prop} {Pre Post : (Party → σ) → Prop} {Inv : Nat → Nat → (Party → σ) → Prop}
  {Cap : Nat → Nat → Prop} {msbCost orCost : Nat → Nat} {CsOk : Nat → Prop} {dotCost : Nat → Nat} {n u : Nat} {st : Party → σ}

theorem encode_length (c : IrisCodeArray) : (encode V c).length = irisCodeSize := by
  unfold encode
  rw [List.length_map, Aby3.bitList_length]

theorem tryFrom_ok (hK : 15 ≤ K) (s : Bool) {c : Nat} (hc : c ≤ 12800) :
    tryFromUsize s K c = .ok (BitVec.ofNat K c) ∧ (BitVec.ofNat K c).toNat = c ∧ c < 2 ^ (K - 1) := by
  have h14 : (2 : Nat) ^ 14 ≤ 2 ^ (K - 1) := Nat.pow_le_pow_right (by omega) (by omega)
  have hp : (2 : Nat) ^ K = 2 * 2 ^ (K - 1) := by
    rw [← Nat.pow_succ']; congr 1; omega
  have h1 : c < 2 ^ (K - 1) := by omega
  have h2 : c < 2 ^ K := by omega
  refine ⟨?_, ?_, h1⟩
  · unfold tryFromUsize
    cases s <;> simp [h1, h2]
  · rw [BitVec.toNat_ofNat, Nat.mod_eq_of_lt h2]

/-- The distance of one pair. -/
theorem hammingPost_rel (L : MpcLawful ops RelA RelB Pre Post Inv Cap msbCost orCost CsOk dotCost) (hK : 15 ≤ K)
    {q c : IrisCode} {a b : Party → List A} {dot : Party → A}
    (ha : Rels RelA (encode V q.code) a) (hb : Rels RelA (encode V c.code) b)
    (hd : RelA (maskedSum (IrisCodeArray.bitList (q.mask.and c.mask))
      (List.zipWith (· * ·) (encode V q.code) (encode V c.code))) dot) :
    ∃ r : Party → A, RelA (BitVec.ofNat V (hammingDistance q c)) r ∧
      ∀ i, Iris.hammingPost (ops i) (a i) (b i) (q.mask.and c.mask) (dot i) = .ok (r i) := by
  obtain ⟨s, t, hs, ht, e⟩ := L.filter (m := q.mask.and c.mask) ha hb
  obtain ⟨e2, e3, e4⟩ := tryFrom_ok (K := K) hK (c := 2) false (by omega)
  have hmul := L.mulConst (BitVec.ofNat K 2) (by rw [e3]; exact e4) hd
  rw [e3] at hmul
  have hr := L.sub (L.add hs ht) hmul
  refine ⟨fun i => (ops i).sub ((ops i).add (s i) (t i)) ((ops i).mulConst (dot i) (BitVec.ofNat K 2)), ?_, fun i => ?_⟩
  rotate_left
  · unfold Iris.hammingPost
    have h1 : (a i).length = irisCodeSize := by rw [ha.length, encode_length]
    have h2 : (b i).length = irisCodeSize := by rw [hb.length, encode_length]
    have h3 : ¬ ((a i).isEmpty ∨ (a i).length ≠ (b i).length) := by
      rw [h1, h2, List.isEmpty_iff]
      rintro (h | h)
      · rw [h] at h1; simp [irisCodeSize] at h1
      · exact h rfl
    rw [if_neg h3, e i, (tryFrom_ok hK _ (by omega)).1]
    rfl
  · have := distance_eq (K := V) (IrisCodeArray.bitList (q.mask.and c.mask)) (IrisCodeArray.bitList q.code)
      (IrisCodeArray.bitList c.code) (by rw [Aby3.bitList_length, Aby3.bitList_length])
      (by rw [Aby3.bitList_length, Aby3.bitList_length])
    have hcomm : distList (IrisCodeArray.bitList (q.mask.and c.mask)) (IrisCodeArray.bitList q.code)
        (IrisCodeArray.bitList c.code) = hammingDistance q c := by
      unfold IrisCodeArray.bitList
      rw [List.ofFn_eq_map, List.ofFn_eq_map, List.ofFn_eq_map, distList_map]
      unfold hammingDistance
      congr 1
      funext i
      rw [(C17_bitwise _ _ i).1]
    rw [hcomm] at this
    rw [← this]
    exact hr

theorem hammingLoop_rel (L : MpcLawful ops RelA RelB Pre Post Inv Cap msbCost orCost CsOk dotCost) (hK : 15 ≤ K)
    {q : IrisCode} {a : Party → List A} (ha : Rels RelA (encode V q.code) a) (cs : List IrisCode)
    {b : Party → List (List A)} {dots : Party → List A}
    (hb : Rels (Rels RelA) (cs.map fun c => encode V c.code) b)
    (hd : Rels RelA (cs.map fun c => maskedSum (IrisCodeArray.bitList (q.mask.and c.mask))
      (List.zipWith (· * ·) (encode V q.code) (encode V c.code))) dots) :
    ∃ r : Party → List A, Rels RelA (cs.map fun c => BitVec.ofNat V (hammingDistance q c)) r ∧
      ∀ i, Iris.hammingLoop (ops i) (a i) (((b i).zip (dots i)).zip (cs.map fun c => q.mask.and c.mask))
        = .ok (r i) := by
  induction cs generalizing b dots with
  | nil =>
    rw [hb.eq_nil, hd.eq_nil]
    exact ⟨_, Rels.nil, fun i => rfl⟩
  | cons c cs ih =>
    obtain ⟨b1, b2, k1, k2, rfl⟩ := Rels.uncons hb
    obtain ⟨d1, d2, m1, m2, rfl⟩ := Rels.uncons hd
    obtain ⟨r1, hr1, e1⟩ := L.hammingPost_rel hK ha k1 m1
    obtain ⟨r2, hr2, e2⟩ := ih k2 m2
    refine ⟨_, Rels.cons hr1 hr2, fun i => ?_⟩
    simp only [List.map_cons, List.zip_cons_cons, Iris.hammingLoop, e1 i, e2 i]
    rfl

theorem zipWith_maps {X Y Z W : Type} (f : Y → Z → W) (g : X → Y) (h : X → Z) (l : List X) :
    List.zipWith f (l.map g) (l.map h) = l.map fun x => f (g x) (h x) := by
  induction l with
  | nil => rfl
  | cons x l ih => simp [ih]

/-- `masked_hamming_distance_many` computes the distances. -/
theorem hammingMany_wp (L : MpcLawful ops RelA RelB Pre Post Inv Cap msbCost orCost CsOk dotCost) (hK : 15 ≤ K)
    {q : IrisCode} {a : Party → List A} (ha : Rels RelA (encode V q.code) a) {cs : List IrisCode} (hne : cs ≠ [])
    {b : Party → List (List A)} (hb : Rels (Rels RelA) (cs.map fun c => encode V c.code) b) (hI : Inv n u st) :
    WPS (fun i => Iris.hammingMany (ops i) (a i) (b i) (cs.map fun c => q.mask.and c.mask)) st
      (fun r st' => Rels RelA (cs.map fun c => BitVec.ofNat V (hammingDistance q c)) r ∧
        Inv n (u + dotCost cs.length) st') := by
  unfold Iris.hammingMany
  refine WPS.bind ((L.maskedDotMany (masks := cs.map fun c => q.mask.and c.mask) hI (encode_length _) ha hb
    ?_ (by simp) (by simpa using hne)).mono ?_)
  · intro ys hys
    obtain ⟨c, -, rfl⟩ := List.mem_map.1 hys
    exact encode_length _
  · rintro d st' ⟨hd, hI'⟩
    rw [zipWith_maps] at hd
    rw [List.length_map] at hI'
    obtain ⟨r, hr, e⟩ := L.hammingLoop_rel hK ha cs hb hd
    exact WPS.lift e ⟨hr, hI'⟩

theorem commonBits_comm (a b : IrisCode) : commonBits a b = commonBits b a := by
  unfold commonBits; congr 1; funext i; rw [Bool.and_comm]

theorem hammingDistance_comm (a b : IrisCode) : hammingDistance a b = hammingDistance b a := by
  unfold hammingDistance; congr 1; funext i; rw [bne_comm, Bool.and_comm (a.mask.bitAt i)]

theorem threshold_le (q c : IrisCode) : matchThreshold (commonBits q c) ≤ 12800 := by
  have := commonBits_le q c
  rw [C18_match_threshold _ this]; omega

attribute [local irreducible] hammingDistance commonBits

/-- The test of one entry. -/
def closeBit (q c : IrisCode) : Bool := decide (hammingDistance q c < 34 * commonBits q c / 100)

theorem setWidth_diff (hK : 15 ≤ K) (hV : K ≤ V) (d t : Nat) (hd : d ≤ 12800) (ht : t ≤ 12800) :
    (BitVec.ofNat V d - BitVec.ofNat V t).setWidth K = BitVec.ofNat K d - BitVec.ofNat K t := by
  have h15 : (2 : Nat) ^ 15 ≤ 2 ^ K := Nat.pow_le_pow_right (by omega) hK
  have hle : (2 : Nat) ^ K ≤ 2 ^ V := Nat.pow_le_pow_right (by omega) hV
  have hv : (2 : Nat) ^ V = 2 ^ K + 2 ^ K * (2 ^ (V - K) - 1) := by
    rw [Nat.mul_sub, ← Nat.pow_add, Nat.add_sub_cancel' hV]; omega
  apply BitVec.eq_of_toNat_eq
  rw [BitVec.toNat_setWidth, BitVec.toNat_sub, BitVec.toNat_sub, BitVec.toNat_ofNat, BitVec.toNat_ofNat,
    BitVec.toNat_ofNat, BitVec.toNat_ofNat, Nat.mod_eq_of_lt (show d < 2 ^ V by omega),
    Nat.mod_eq_of_lt (show t < 2 ^ V by omega), Nat.mod_eq_of_lt (show d < 2 ^ K by omega),
    Nat.mod_eq_of_lt (show t < 2 ^ K by omega), Nat.mod_mod_of_dvd _ (Nat.pow_dvd_pow 2 hV),
    show 2 ^ V - t + d = 2 ^ K - t + d + 2 ^ K * (2 ^ (V - K) - 1) by omega, Nat.add_mul_mod_self_left]

theorem diff_msb (hK : 15 ≤ K) (hV : K ≤ V) (q c : IrisCode) :
    ((BitVec.ofNat V (hammingDistance q c) - BitVec.ofNat V (matchThreshold (commonBits q c))).setWidth K).msb
      = closeBit q c := by
  rw [setWidth_diff hK hV _ _ (hammingDistance_le q c) (threshold_le q c), msb_sub_lt hK _ _ (hammingDistance_le q c) (threshold_le q c), closeBit,
    C18_match_threshold _ (commonBits_le q c)]

theorem getCmpDiff_rel (L : MpcLawful ops RelA RelB Pre Post Inv Cap msbCost orCost CsOk dotCost) (hK : 15 ≤ K)
    {x : BitVec V} {t : Nat} (ht : t ≤ 12800) {a : Party → A} (ha : RelA x a) (hI : Inv n u st) :
    ∃ r : Party → A, RelA (x - BitVec.ofNat V (matchThreshold t)) r ∧
      ∀ i, Iris.getCmpDiff (ops i) (st i) (a i) t = .ok (r i) := by
  have hle : matchThreshold t ≤ 12800 := by rw [C18_match_threshold _ ht]; omega
  obtain ⟨e2, e3, e4⟩ := tryFrom_ok (K := K) hK (c := matchThreshold t) false hle
  have h := L.subConst (BitVec.ofNat K (matchThreshold t)) (by rw [e3]; exact e4) hI ha
  rw [e3] at h
  refine ⟨_, h, fun i => ?_⟩
  unfold Iris.getCmpDiff
  rw [(tryFrom_ok hK _ hle).1]; rfl

theorem diffLoop_rel (L : MpcLawful ops RelA RelB Pre Post Inv Cap msbCost orCost CsOk dotCost) (hK : 15 ≤ K)
    (ps : List (BitVec V × Nat)) (ht : ∀ p ∈ ps, p.2 ≤ 12800) {a : Party → List A}
    (ha : Rels RelA (ps.map fun p => p.1) a) (hI : Inv n u st) :
    ∃ r : Party → List A, Rels RelA (ps.map fun p => p.1 - BitVec.ofNat V (matchThreshold p.2)) r ∧
      ∀ i, Iris.diffLoop (ops i) (st i) ((a i).zip (ps.map fun p => p.2)) = .ok (r i) := by
  induction ps generalizing a with
  | nil => rw [ha.eq_nil]; exact ⟨_, Rels.nil, fun i => rfl⟩
  | cons p ps ih =>
    obtain ⟨a1, a2, k1, k2, rfl⟩ := Rels.uncons ha
    obtain ⟨r1, hr1, e1⟩ := L.getCmpDiff_rel hK (ht p (by simp)) k1 hI
    obtain ⟨r2, hr2, e2⟩ := ih (fun p hp => ht p (by simp [hp])) k2
    refine ⟨_, Rels.cons hr1 hr2, fun i => ?_⟩
    simp only [List.map_cons, List.zip_cons_cons, Iris.diffLoop, e1 i, e2 i]
    rfl

theorem compareThresholdMany_wp (L : MpcLawful ops RelA RelB Pre Post Inv Cap msbCost orCost CsOk dotCost) (hK : 15 ≤ K)
    (ps : List (BitVec V × Nat)) (hne : ps ≠ []) (ht : ∀ p ∈ ps, p.2 ≤ 12800) {a : Party → List A}
    (ha : Rels RelA (ps.map fun p => p.1) a) (hI : Inv n u st) :
    WPS (fun i => Iris.compareThresholdMany (ops i) (a i) (ps.map fun p => p.2)) st
      (fun r st' => Rels RelB
        (ps.map fun p => bitOf ((p.1 - BitVec.ofNat V (matchThreshold p.2)).setWidth K).msb) r ∧
        Inv n (u + msbCost ps.length) st') := by
  unfold Iris.compareThresholdMany
  refine WPS.ite_neg (fun i => by rw [ha.length]; simp) ?_
  refine WPS.bind (WPS.get ?_)
  obtain ⟨r, hr, e⟩ := L.diffLoop_rel hK ps ht ha hI
  refine WPS.bind (WPS.lift e ?_)
  refine (L.getMsbMany (by simpa using hne) hI hr).mono ?_
  rintro b st' ⟨hb, hI'⟩
  rw [List.map_map] at hb
  rw [List.length_map] at hI'
  exact ⟨hb, hI'⟩

theorem combineAll_ok (q : IrisCode) (cs : List IrisCode) (h : ∀ c ∈ cs, 8960 ≤ commonBits q c) :
    Iris.combineAll q.mask (cs.map fun c => c.mask) = .ok (cs.map fun c => q.mask.and c.mask) := by
  induction cs with
  | nil => rfl
  | cons c cs ih =>
    have h1 : Iris.combineMasks q.mask c.mask = .ok (q.mask.and c.mask) := by
      have := h c (by simp)
      show (if (q.mask.and c.mask).countOnes < maskThreshold then _ else _) = _
      rw [countOnes_masks, C18_mask_threshold.1, if_neg (by omega)]
    simp only [List.map_cons, Iris.combineAll, h1, ih (fun c hc => h c (by simp [hc]))]
    rfl

/-- `compare_iris_many` computes the comparison bits. -/
theorem compareIrisMany_wp (L : MpcLawful ops RelA RelB Pre Post Inv Cap msbCost orCost CsOk dotCost) (hK : 15 ≤ K) (hV : K ≤ V)
    {q : IrisCode} {a : Party → List A} (ha : Rels RelA (encode V q.code) a) {cs : List IrisCode} (hne : cs ≠ [])
    (hm : ∀ c ∈ cs, 8960 ≤ commonBits q c)
    {b : Party → List (List A)} (hb : Rels (Rels RelA) (cs.map fun c => encode V c.code) b) (hI : Inv n u st) :
    WPS (fun i => Iris.compareIrisMany (ops i) (a i) (b i) q.mask (cs.map fun c => c.mask)) st
      (fun r st' => Rels RelB (cs.map fun c => bitOf (closeBit q c)) r ∧
        Inv n (u + (msbCost cs.length + dotCost cs.length)) st') := by
  unfold Iris.compareIrisMany
  refine WPS.ite_neg (fun i => by rw [hb.length]; simp [hne]) ?_
  refine WPS.bind (WPS.lift (fun i => combineAll_ok q cs hm) ?_)
  refine WPS.bind ((L.hammingMany_wp hK ha hne hb hI).mono ?_)
  rintro d st' ⟨hd, hI'⟩
  have hlen : (cs.map fun c => q.mask.and c.mask).map IrisCodeArray.countOnes
      = (cs.map fun c => (BitVec.ofNat V (hammingDistance q c), commonBits q c)).map fun p => p.2 := by
    rw [List.map_map, List.map_map]
    apply List.map_congr_left
    intro c _
    exact countOnes_masks q c
  have hd' : Rels RelA ((cs.map fun c => (BitVec.ofNat V (hammingDistance q c), commonBits q c)).map fun p => p.1) d := by
    rw [List.map_map]; exact hd
  have := L.compareThresholdMany_wp hK (cs.map fun c => (BitVec.ofNat V (hammingDistance q c), commonBits q c))
    (by simpa using hne) (by
      intro p hp
      obtain ⟨c, -, rfl⟩ := List.mem_map.1 hp
      exact commonBits_le q c) hd' hI'
  rw [← hlen] at this
  refine this.mono ?_
  rintro r st'' ⟨hr, hI''⟩
  rw [List.map_map, List.length_map] at *
  refine ⟨?_, by rw [Nat.add_comm (msbCost _), ← Nat.add_assoc]; exact hI''⟩
  convert hr using 2
  funext c
  simp only [Function.comp_def, diff_msb hK hV]

/-- The chunk loop. -/
theorem chunkLoop_wp (L : MpcLawful ops RelA RelB Pre Post Inv Cap msbCost orCost CsOk dotCost) (hK : 15 ≤ K) (hV : K ≤ V)
    {q : IrisCode} {a : Party → List A} (ha : Rels RelA (encode V q.code) a) (css : List (List IrisCode))
    (hne : ∀ cs ∈ css, cs ≠ []) (hm : ∀ cs ∈ css, ∀ c ∈ cs, 8960 ≤ commonBits q c)
    {b : Party → List (List (List A))}
    (hb : Rels (Rels (Rels RelA)) (css.map fun cs => cs.map fun c => encode V c.code) b) (hI : Inv n u st) :
    WPS (fun i => Iris.chunkLoop (ops i) (a i) q.mask ((b i).zip (css.map fun cs => cs.map fun c => c.mask))) st
      (fun r st' => Rels RelB (css.flatten.map fun c => bitOf (closeBit q c)) r ∧
        Inv n (u + (css.map fun cs => msbCost cs.length + dotCost cs.length).sum) st') := by
  induction css generalizing b u st with
  | nil =>
    rw [hb.eq_nil]
    exact WPS.pure (a := fun _ => []) ⟨Rels.nil, hI⟩
  | cons cs css ih =>
    obtain ⟨b1, b2, k1, k2, rfl⟩ := Rels.uncons hb
    simp only [List.map_cons, List.zip_cons_cons, Iris.chunkLoop]
    refine WPS.bind ((L.compareIrisMany_wp hK hV ha (hne cs (by simp)) (hm cs (by simp)) k1 hI).mono ?_)
    rintro r st' ⟨hr, hI'⟩
    refine WPS.bind ((ih (fun cs h => hne cs (by simp [h])) (fun cs h => hm cs (by simp [h])) k2 hI').mono ?_)
    rintro r2 st'' ⟨hr2, hI''⟩
    refine WPS.pure (a := fun i => r i ++ r2 i) ⟨?_, ?_⟩
    · rw [List.flatten_cons, List.map_append]; exact Rels.append hr hr2
    · rw [List.sum_cons, ← Nat.add_assoc]; exact hI''

theorem mem_chunksOf_ne {α : Type} (n : Nat) (l : List α) : ∀ ch ∈ chunksOf n l, ch ≠ [] := by
  fun_induction chunksOf n l with
  | case1 l h => simp
  | case2 l h ih =>
    push Not at h
    intro ch hch
    rcases List.mem_cons.1 hch with rfl | hch
    · intro he
      have := congrArg List.length he
      rw [List.length_take] at this
      have hl : 0 < l.length := List.length_pos_iff.2 h.2
      rw [List.length_nil] at this; omega
    · exact ih ch hch

theorem mem_of_mem_chunksOf {α : Type} {n : Nat} {l : List α} {ch : List α} (h : ch ∈ chunksOf n l) {x : α}
    (hx : x ∈ ch) : x ∈ l := by
  by_cases hn : n = 0
  · subst hn; unfold chunksOf at h; simp at h
  · rw [← chunksOf_flatten hn l]
    exact List.mem_flatten.2 ⟨ch, h, hx⟩

/-- The number of AND gates requested; no overflow for sizes far below `2^64`. -/
theorem numAndTriples_ok {len cs : Nat} (hK : 15 ≤ K) (hcs : cs ≠ 0)
    (hb : (len + cs) * (2 * K) < 2 ^ 64) :
    Iris.numAndTriples K len cs = .ok ((len + cs - 1) / cs * cs * (K * 2 - 3) + (len + cs - 2) / cs * cs) := by
  have h1 : (len + cs - 1) / cs * cs ≤ len + cs - 1 := Nat.div_mul_le_self _ _
  have h2 : (len + cs - 2) / cs * cs ≤ len + cs - 2 := Nat.div_mul_le_self _ _
  have h3 : (len + cs - 1) / cs * cs * (K * 2 - 3) ≤ (len + cs) * (2 * K - 3) := by
    rw [Nat.mul_comm K 2]; exact Nat.mul_le_mul_right _ (by omega)
  have h4 : (len + cs) * (2 * K - 3) + 3 * (len + cs) = (len + cs) * (2 * K) := by
    rw [Nat.mul_comm 3, ← Nat.mul_add]; congr 1; omega
  have h5 : len + cs < usizeLimit := by unfold usizeLimit; nlinarith
  have h6 : (len + cs - 1) / cs * cs * (K * 2 - 3) < usizeLimit := by unfold usizeLimit; omega
  have h7 : (len + cs - 1) / cs * cs * (K * 2 - 3) + (len + cs - 2) / cs * cs < usizeLimit := by
    unfold usizeLimit; omega
  simp only [Iris.numAndTriples, Iris.msbAndGates, usizeE, h5, if_true, hcs, if_false, bind, Except.bind, h6, h7]

/-- The number of AND-gate bits a query uses. -/
def queryCost (msbCost orCost : Nat → Nat) (len cs : Nat) : Nat :=
  ((chunksOf cs (List.replicate len ())).map fun ch => msbCost ch.length).sum + orCost len

/-- The number of AND gates a query asks for. -/
def queryAnds (K len cs : Nat) : Nat := (len + cs - 1) / cs * cs * (K * 2 - 3) + (len + cs - 2) / cs * cs

theorem chunksOf_map' {X Y : Type} (f : X → Y) (n : Nat) (l : List X) :
    chunksOf n (l.map f) = (chunksOf n l).map (List.map f) := by
  induction hk : l.length using Nat.strong_induction_on generalizing l with
  | _ k ih =>
    by_cases hc : n = 0 ∨ l = []
    · rcases hc with hc | hc
      · subst hc; unfold chunksOf; simp
      · subst hc; simp [chunksOf_nil]
    · push Not at hc
      rw [chunksOf_cons hc.1 (by simpa using hc.2), chunksOf_cons hc.1 hc.2, List.map_cons, ← List.map_drop,
        List.map_take]
      congr 1
      have : 0 < l.length := List.length_pos_iff.2 hc.2
      exact ih _ (by simp only [List.length_drop]; omega) _ rfl

theorem chunks_cost {X : Type} (f : Nat → Nat) (n : Nat) (l : List X) :
    ((chunksOf n l).map fun ch => f ch.length).sum
      = ((chunksOf n (List.replicate l.length ())).map fun ch => f ch.length).sum := by
  have : List.replicate l.length () = l.map fun _ => () := by simp
  rw [this, chunksOf_map', List.map_map]
  congr 1
  apply List.map_congr_left
  intro ch _
  simp

/-- `iris_in_db` answers the query. -/
theorem irisInDb_wp (L : MpcLawful ops RelA RelB Pre Post Inv Cap msbCost orCost CsOk dotCost) (hK : 15 ≤ K) (hV : K ≤ V)
    {q : IrisCode} {a : Party → List A} (ha : Rels RelA (encode V q.code) a) {db : List IrisCode} (hne : db ≠ [])
    (hm : ∀ c ∈ db, 8960 ≤ commonBits c q) {b : Party → List (List A)}
    (hb : Rels (Rels RelA) (db.map fun c => encode V c.code) b) {cs : Nat} (hcs : cs ≠ 0)
    (hok : CsOk cs) (hov : (db.length + cs) * (2 * K) < 2 ^ 64)
    (hcap : Cap (queryAnds K db.length cs) (queryCost (fun n => msbCost n + dotCost n) orCost db.length cs)) (hP : Pre st) :
    WPS (fun i => Iris.irisInDb (ops i) (a i) (b i) q.mask (db.map fun c => c.mask) cs) st
      (fun r st' => (∀ i, r i = inDb q db) ∧ Post st') := by
  have hlen : db.length ≠ 0 := by simpa using hne
  unfold Iris.irisInDb
  refine WPS.ite_neg (fun i => by rw [hb.length]; simp [hne]) ?_
  refine WPS.bind (WPS.lift (a := fun _ => queryAnds K db.length cs)
    (fun i => by rw [hb.length, List.length_map]; exact numAndTriples_ok hK hcs hov) ?_)
  refine WPS.bind ((L.precompute hP).mono ?_)
  rintro _ st' hI
  obtain ⟨ch, hch, ech⟩ := Rels.chunksE hb hcs
  refine WPS.bind (WPS.lift ech ?_)
  refine WPS.bind (WPS.lift (a := fun _ => chunksOf cs (db.map fun c => c.mask))
    (fun i => by unfold chunksE; rw [if_neg hcs]) ?_)
  rw [chunksOf_map'] at hch
  have hm' : ∀ ch ∈ chunksOf cs db, ∀ c ∈ ch, 8960 ≤ commonBits q c := fun ch hc c hcc => by
    rw [commonBits_comm]; exact hm c (mem_of_mem_chunksOf hc hcc)
  have hw := L.chunkLoop_wp hK hV ha (chunksOf cs db) (mem_chunksOf_ne cs db) hm' (b := ch) hch hI
  rw [show chunksOf cs (db.map fun c => c.mask) = (chunksOf cs db).map fun cs => cs.map fun c => c.mask from
    chunksOf_map' _ _ _]
  refine WPS.bind (hw.mono ?_)
  rintro r st'' ⟨hr, hI'⟩
  rw [chunksOf_flatten hcs] at hr
  refine WPS.bind ((L.reduceBinaryOr hcs hok (by simpa using hne) hI' hr).mono ?_)
  rintro s st3 ⟨hs, hI3⟩
  rw [List.length_map, Nat.zero_add, chunks_cost (fun n => msbCost n + dotCost n)] at hI3
  refine WPS.bind (WPS.unwrap ((L.verify hI3 hcap).mono ?_))
  rintro _ st4 hP4
  refine (L.openBit hP4 hs).mono ?_
  rintro t st5 ⟨ht, hP5⟩
  refine ⟨fun i => ?_, hP5⟩
  rw [ht i]
  have hb : ∀ b : Bool, bitVal (bitOf b) = b := by decide
  rw [hb, List.any_map, inDb]
  congr 1
  funext c
  simp only [Function.comp_def, hb, closeBit]
  rw [hammingDistance_comm, commonBits_comm]

/-- One database entry with too few common valid bits: the mask check of its chunk fails. -/
theorem combineAll_error (q : IrisCode) (cs : List IrisCode) (h : ∃ c ∈ cs, commonBits q c < 8960) :
    Iris.combineAll q.mask (cs.map fun c => c.mask) = .error .maskHW := by
  induction cs with
  | nil => simp at h
  | cons c cs ih =>
    by_cases hc : commonBits q c < 8960
    · have h1 : Iris.combineMasks q.mask c.mask = .error .maskHW := by
        show (if (q.mask.and c.mask).countOnes < maskThreshold then _ else _) = _
        rw [countOnes_masks, C18_mask_threshold.1, if_pos hc]
      simp only [List.map_cons, Iris.combineAll, h1]
      rfl
    · have h1 : Iris.combineMasks q.mask c.mask = .ok (q.mask.and c.mask) := by
        show (if (q.mask.and c.mask).countOnes < maskThreshold then _ else _) = _
        rw [countOnes_masks, C18_mask_threshold.1, if_neg hc]
      have h2 : ∃ c ∈ cs, commonBits q c < 8960 := by
        obtain ⟨c', hc', hlt⟩ := h
        rcases List.mem_cons.1 hc' with rfl | hc'
        · exact absurd hlt hc
        · exact ⟨c', hc', hlt⟩
      simp only [List.map_cons, Iris.combineAll, h1, ih h2]
      rfl

theorem compareIrisMany_maskHW (o : MpcOps σ A B K) (a : List A) (b : List (List A)) (q : IrisCode)
    (cs : List IrisCode) (hl : b.length = cs.length) (h : ∃ c ∈ cs, commonBits q c < 8960) :
    FailsAtOnce (Iris.compareIrisMany o a b q.mask (cs.map fun c => c.mask)) .maskHW := by
  unfold Iris.compareIrisMany
  have : cs ≠ [] := by rintro rfl; simp at h
  rw [if_neg (by simp [hl, this])]
  exact FailsAtOnce.bind_left (FailsAtOnce.lift (combineAll_error q cs h))

theorem chunkLoop_fails (L : MpcLawful ops RelA RelB Pre Post Inv Cap msbCost orCost CsOk dotCost) (hK : 15 ≤ K) (hV : K ≤ V)
    {q : IrisCode} {a : Party → List A} (ha : Rels RelA (encode V q.code) a) (css : List (List IrisCode))
    (hne : ∀ cs ∈ css, cs ≠ []) (hm : ∃ cs ∈ css, ∃ c ∈ cs, commonBits q c < 8960)
    {b : Party → List (List (List A))}
    (hb : Rels (Rels (Rels RelA)) (css.map fun cs => cs.map fun c => encode V c.code) b) (hI : Inv n u st) :
    WPSF (fun i => Iris.chunkLoop (ops i) (a i) q.mask ((b i).zip (css.map fun cs => cs.map fun c => c.mask))) st
      .maskHW := by
  induction css generalizing b u st with
  | nil => simp at hm
  | cons cs css ih =>
    obtain ⟨b1, b2, k1, k2, rfl⟩ := Rels.uncons hb
    simp only [List.map_cons, List.zip_cons_cons, Iris.chunkLoop]
    by_cases hc : ∃ c ∈ cs, commonBits q c < 8960
    · refine WPSF.bind_left (WPSF.atOnce (fun i => ?_) st)
      exact compareIrisMany_maskHW _ _ _ q cs (by rw [k1.length, List.length_map]) hc
    · push Not at hc
      refine WPSF.bind ((L.compareIrisMany_wp hK hV ha (hne cs (by simp)) hc k1 hI).mono ?_)
      rintro r st' ⟨hr, hI'⟩
      refine WPSF.bind_left (ih (fun cs h => hne cs (by simp [h])) ?_ k2 hI')
      obtain ⟨cs', hcs', c, hcc, hlt⟩ := hm
      rcases List.mem_cons.1 hcs' with rfl | hcs'
      · exact absurd hlt (by have := hc c hcc; omega)
      · exact ⟨cs', hcs', c, hcc, hlt⟩

/-- A query with an insufficient mask ends, for all parties and under every schedule, with `MaskHWError`. -/
theorem irisInDb_fails (L : MpcLawful ops RelA RelB Pre Post Inv Cap msbCost orCost CsOk dotCost) (hK : 15 ≤ K) (hV : K ≤ V)
    {q : IrisCode} {a : Party → List A} (ha : Rels RelA (encode V q.code) a) {db : List IrisCode}
    (hm : ∃ c ∈ db, commonBits c q < 8960) {b : Party → List (List A)}
    (hb : Rels (Rels RelA) (db.map fun c => encode V c.code) b) {cs : Nat} (hcs : cs ≠ 0)
    (hov : (db.length + cs) * (2 * K) < 2 ^ 64) (hP : Pre st) :
    WPSF (fun i => Iris.irisInDb (ops i) (a i) (b i) q.mask (db.map fun c => c.mask) cs) st .maskHW := by
  have hne : db ≠ [] := by rintro rfl; simp at hm
  unfold Iris.irisInDb
  refine WPSF.ite_neg (fun i => by rw [hb.length]; simp [hne]) ?_
  refine WPSF.bind (WPS.lift (a := fun _ => queryAnds K db.length cs)
    (fun i => by rw [hb.length, List.length_map]; exact numAndTriples_ok hK hcs hov) ?_)
  refine WPSF.bind ((L.precompute hP).mono ?_)
  rintro _ st' hI
  obtain ⟨ch, hch, ech⟩ := Rels.chunksE hb hcs
  refine WPSF.bind (WPS.lift ech ?_)
  refine WPSF.bind (WPS.lift (a := fun _ => chunksOf cs (db.map fun c => c.mask))
    (fun i => by unfold chunksE; rw [if_neg hcs]) ?_)
  rw [chunksOf_map'] at hch
  rw [show chunksOf cs (db.map fun c => c.mask) = (chunksOf cs db).map fun cs => cs.map fun c => c.mask from
    chunksOf_map' _ _ _]
  refine WPSF.bind_left (L.chunkLoop_fails hK hV ha (chunksOf cs db) (mem_chunksOf_ne cs db) ?_ (b := ch) hch hI)
  obtain ⟨c, hc, hlt⟩ := hm
  rw [← chunksOf_flatten hcs db] at hc
  obtain ⟨l, hl, hcl⟩ := List.mem_flatten.1 hc
  exact ⟨l, hl, c, hcl, by rw [commonBits_comm]; exact hlt⟩

/-- A query whose final verification fails panics at every party and under every schedule. -/
theorem irisInDb_verify_fails (L : MpcLawful ops RelA RelB Pre Post Inv Cap msbCost orCost CsOk dotCost) (hK : 15 ≤ K) (hV : K ≤ V)
    {q : IrisCode} {a : Party → List A} (ha : Rels RelA (encode V q.code) a) {db : List IrisCode} (hne : db ≠ [])
    (hm : ∀ c ∈ db, 8960 ≤ commonBits c q) {b : Party → List (List A)}
    (hb : Rels (Rels RelA) (db.map fun c => encode V c.code) b) {cs : Nat} (hcs : cs ≠ 0)
    (hok : CsOk cs) (hov : (db.length + cs) * (2 * K) < 2 ^ 64) {e : Err}
    (hver : ∀ st', Inv (queryAnds K db.length cs) (queryCost (fun n => msbCost n + dotCost n) orCost db.length cs) st' →
      WPSF (fun i => (ops i).verify) st' e) (hP : Pre st) :
    WPSF (fun i => Iris.irisInDb (ops i) (a i) (b i) q.mask (db.map fun c => c.mask) cs) st .panic := by
  have hlen : db.length ≠ 0 := by simpa using hne
  unfold Iris.irisInDb
  refine WPSF.ite_neg (fun i => by rw [hb.length]; simp [hne]) ?_
  refine WPSF.bind (WPS.lift (a := fun _ => queryAnds K db.length cs)
    (fun i => by rw [hb.length, List.length_map]; exact numAndTriples_ok hK hcs hov) ?_)
  refine WPSF.bind ((L.precompute hP).mono ?_)
  rintro _ st' hI
  obtain ⟨ch, hch, ech⟩ := Rels.chunksE hb hcs
  refine WPSF.bind (WPS.lift ech ?_)
  refine WPSF.bind (WPS.lift (a := fun _ => chunksOf cs (db.map fun c => c.mask))
    (fun i => by unfold chunksE; rw [if_neg hcs]) ?_)
  rw [chunksOf_map'] at hch
  have hm' : ∀ ch ∈ chunksOf cs db, ∀ c ∈ ch, 8960 ≤ commonBits q c := fun ch hc c hcc => by
    rw [commonBits_comm]; exact hm c (mem_of_mem_chunksOf hc hcc)
  have hw := L.chunkLoop_wp hK hV ha (chunksOf cs db) (mem_chunksOf_ne cs db) hm' (b := ch) hch hI
  rw [show chunksOf cs (db.map fun c => c.mask) = (chunksOf cs db).map fun cs => cs.map fun c => c.mask from
    chunksOf_map' _ _ _]
  refine WPSF.bind (hw.mono ?_)
  rintro r st'' ⟨hr, hI'⟩
  rw [chunksOf_flatten hcs] at hr
  refine WPSF.bind ((L.reduceBinaryOr hcs hok (by simpa using hne) hI' hr).mono ?_)
  rintro s st3 ⟨hs, hI3⟩
  rw [List.length_map, Nat.zero_add, chunks_cost (fun n => msbCost n + dotCost n)] at hI3
  exact WPSF.bind_left (WPSF.unwrap (hver st3 hI3))

end MpcLawful

end Verif
