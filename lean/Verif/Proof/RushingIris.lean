import Verif.Proof.Rushing

/-! # The rushing attack on a whole query -/

namespace Verif

variable {σ A B : Type} {K : Nat}

namespace MpcLawful

variable {ops : Party → MpcOps σ A B K} {RelA : BitVec K → (Party → A) → Prop}
  {RelB : BitVec 1 → (Party → B) → Prop} {Pre Post : (Party → σ) → Prop} {Inv : Nat → Nat → (Party → σ) → Prop}
  {Cap : Nat → Nat → Prop} {msbCost orCost : Nat → Nat} {CsOk : Nat → Prop} {dotCost : Nat → Nat} {n u : Nat} {st : Party → σ}

/-- The distance of one pair, when the dot product is off by `e`. -/
theorem hammingPost_off (L : MpcLawful ops RelA RelB Pre Post Inv Cap msbCost orCost CsOk dotCost) (hK : 15 ≤ K)
    {q c : IrisCode} {a b : Party → List A} {dot : Party → A} {e : BitVec K}
    (ha : Rels RelA (encode K q.code) a) (hb : Rels RelA (encode K c.code) b)
    (hd : RelA (maskedSum (IrisCodeArray.bitList (q.mask.and c.mask))
      (List.zipWith (· * ·) (encode K q.code) (encode K c.code)) + e) dot) :
    ∃ r : Party → A, RelA (BitVec.ofNat K (hammingDistance q c) - e * BitVec.ofNat K 2) r ∧
      ∀ i, Iris.hammingPost (ops i) (a i) (b i) (q.mask.and c.mask) (dot i) = .ok (r i) := by
  obtain ⟨s, t, hs, ht, e1⟩ := L.filter (m := q.mask.and c.mask) ha hb
  obtain ⟨e2, e3, e4⟩ := tryFrom_ok (K := K) hK (c := 2) false (by omega)
  have hmul := L.mulConst (BitVec.ofNat K 2) (by rw [e3]; exact e4) hd
  rw [e3] at hmul
  have hr := L.sub (L.add hs ht) hmul
  refine ⟨fun i => (ops i).sub ((ops i).add (s i) (t i)) ((ops i).mulConst (dot i) (BitVec.ofNat K 2)), ?_, fun i => ?_⟩
  rotate_left
  · unfold Iris.hammingPost
    have h1 : (a i).length = irisCodeSize := by rw [ha.length, encode_length]
    have h2 : (b i).length = irisCodeSize := by rw [hb.length, encode_length]
    have h3 : ¬ ((a i).isEmpty ∨ (a i).length ≠ (b i).length) := by
      rw [h1, h2, List.isEmpty_iff]
      rintro (h | h)
      · rw [h] at h1; simp [irisCodeSize] at h1
      · exact h rfl
    rw [if_neg h3, e1 i, (tryFrom_ok hK _ (by omega)).1]
    rfl
  · have := distance_eq (K := K) (IrisCodeArray.bitList (q.mask.and c.mask)) (IrisCodeArray.bitList q.code)
      (IrisCodeArray.bitList c.code) (by rw [Aby3.bitList_length, Aby3.bitList_length])
      (by rw [Aby3.bitList_length, Aby3.bitList_length])
    have hcomm : distList (IrisCodeArray.bitList (q.mask.and c.mask)) (IrisCodeArray.bitList q.code)
        (IrisCodeArray.bitList c.code) = hammingDistance q c := by
      unfold IrisCodeArray.bitList
      rw [List.ofFn_eq_map, List.ofFn_eq_map, List.ofFn_eq_map, distList_map]
      unfold hammingDistance
      congr 1
      funext i
      rw [(C17_bitwise _ _ i).1]
    rw [hcomm] at this
    rw [← this]
    have key : ∀ x y z w : BitVec K, RelA (x + y - (z + e) * w) (fun i => (ops i).sub ((ops i).add (s i) (t i)) ((ops i).mulConst (dot i) (BitVec.ofNat K 2))) →
        RelA (x + y - z * w - e * w) (fun i => (ops i).sub ((ops i).add (s i) (t i)) ((ops i).mulConst (dot i) (BitVec.ofNat K 2))) := by
      intro x y z w h
      rwa [show x + y - z * w - e * w = x + y - (z + e) * w by ring]
    exact key _ _ _ _ hr

attribute [local irreducible] hammingDistance commonBits encode

theorem hammingLoop_off (L : MpcLawful ops RelA RelB Pre Post Inv Cap msbCost orCost CsOk dotCost) (hK : 15 ≤ K)
    {q : IrisCode} {a : Party → List A} (ha : Rels RelA (encode K q.code) a) (cs : List IrisCode)
    {b : Party → List (List A)} {dots : Party → List A} {e : BitVec K}
    (hb : Rels (Rels RelA) (cs.map fun c => encode K c.code) b)
    (hd : Rels RelA (cs.map fun c => maskedSum (IrisCodeArray.bitList (q.mask.and c.mask))
      (List.zipWith (· * ·) (encode K q.code) (encode K c.code)) + e) dots) :
    ∃ r : Party → List A, Rels RelA (cs.map fun c => BitVec.ofNat K (hammingDistance q c) - e * BitVec.ofNat K 2) r ∧
      ∀ i, Iris.hammingLoop (ops i) (a i) (((b i).zip (dots i)).zip (cs.map fun c => q.mask.and c.mask))
        = .ok (r i) := by
  induction cs generalizing b dots with
  | nil =>
    rw [hb.eq_nil, hd.eq_nil]
    exact ⟨_, Rels.nil, fun i => rfl⟩
  | cons c cs ih =>
    obtain ⟨b1, b2, k1, k2, rfl⟩ := Rels.uncons hb
    obtain ⟨d1, d2, m1, m2, rfl⟩ := Rels.uncons hd
    obtain ⟨r1, hr1, e1⟩ := L.hammingPost_off hK ha k1 m1
    obtain ⟨r2, hr2, e2⟩ := ih k2 m2
    refine ⟨_, Rels.cons hr1 hr2, fun i => ?_⟩
    simp only [List.map_cons, List.zip_cons_cons, Iris.hammingLoop, e1 i, e2 i]
    rfl

/-- The backend `ops` with another dot product, whose results are off by `e`. -/
structure Off (ops : Party → MpcOps σ A B K) (RelA : BitVec K → (Party → A) → Prop) (Inv : (Party → σ) → Prop)
    (e : BitVec K) (ops' : Party → MpcOps σ A B K) : Prop where
  same : ∀ i, ops' i = { ops i with maskedDotMany := (ops' i).maskedDotMany }
  dot : ∀ {st} {xs : List (BitVec K)} {a : Party → List A} {yss : List (List (BitVec K))}
    {masks : List IrisCodeArray} {b : Party → List (List A)}, Inv st → xs.length = irisCodeSize →
    Rels RelA xs a → Rels (Rels RelA) yss b → (∀ ys ∈ yss, ys.length = irisCodeSize) → yss.length = masks.length →
    WPS (fun i => (ops' i).maskedDotMany (a i) (b i) masks) st
      (fun c st' => Rels RelA (List.zipWith (fun ys (m : IrisCodeArray) =>
        maskedSum (IrisCodeArray.bitList m) (List.zipWith (· * ·) xs ys) + e) yss masks) c ∧ Inv st')

section

variable {I : (Party → σ) → Prop} {ops' : Party → MpcOps σ A B K} {e : BitVec K}

theorem hammingLoop_same (h : Off ops RelA I e ops') (i : Party) (a : List A)
    (l : List ((List A × A) × IrisCodeArray)) :
    Iris.hammingLoop (ops' i) a l = Iris.hammingLoop (ops i) a l := by
  rw [h.same i]
  induction l with
  | nil => rfl
  | cons x l ih =>
    obtain ⟨⟨x1, x2⟩, x3⟩ := x
    simp only [Iris.hammingLoop, ih]
    rfl

theorem compareThresholdMany_same (h : Off ops RelA I e ops') (i : Party) (a : List A) (t : List Nat) :
    Iris.compareThresholdMany (ops' i) a t = Iris.compareThresholdMany (ops i) a t := by
  rw [h.same i]
  have : ∀ (s : σ) (l : List (A × Nat)), Iris.diffLoop { ops i with maskedDotMany := (ops' i).maskedDotMany } s l
      = Iris.diffLoop (ops i) s l := by
    intro s l
    induction l with
    | nil => rfl
    | cons x l ih =>
      obtain ⟨x1, x2⟩ := x
      simp only [Iris.diffLoop, ih]
      rfl
  unfold Iris.compareThresholdMany
  simp only [this]

/-- The comparison bit, when the distance is off by `2e`. -/
def offBit (e : BitVec K) (q c : IrisCode) : Bool :=
  (BitVec.ofNat K (hammingDistance q c) - e * BitVec.ofNat K 2 -
    BitVec.ofNat K (matchThreshold (commonBits q c))).msb

theorem compareIrisMany_off (L : MpcLawful ops RelA RelB Pre Post (fun _ _ => I) Cap msbCost orCost CsOk dotCost) (hK : 15 ≤ K)
    (h : Off ops RelA I e ops')
    {q : IrisCode} {a : Party → List A} (ha : Rels RelA (encode K q.code) a) {cs : List IrisCode} (hne : cs ≠ [])
    (hm : ∀ c ∈ cs, 8960 ≤ commonBits q c)
    {b : Party → List (List A)} (hb : Rels (Rels RelA) (cs.map fun c => encode K c.code) b) (hI : I st) :
    WPS (fun i => Iris.compareIrisMany (ops' i) (a i) (b i) q.mask (cs.map fun c => c.mask)) st
      (fun r st' => Rels RelB (cs.map fun c => bitOf (offBit e q c)) r ∧ I st') := by
  unfold Iris.compareIrisMany
  refine WPS.ite_neg (fun i => by rw [hb.length]; simp [hne]) ?_
  refine WPS.bind (WPS.lift (fun i => combineAll_ok q cs hm) ?_)
  unfold Iris.hammingMany
  simp only [hammingLoop_same h, compareThresholdMany_same h]
  refine WPS.bind (WPS.bind ((h.dot (masks := cs.map fun c => q.mask.and c.mask) hI (encode_length _) ha hb
    ?_ (by simp)).mono ?_))
  · intro ys hys
    obtain ⟨c, -, rfl⟩ := List.mem_map.1 hys
    exact encode_length _
  rintro d st' ⟨hd, hI'⟩
  rw [zipWith_maps] at hd
  obtain ⟨r, hr, er⟩ := L.hammingLoop_off hK ha cs hb hd
  refine WPS.lift er ?_
  have hlen : (cs.map fun c => q.mask.and c.mask).map IrisCodeArray.countOnes
      = (cs.map fun c => (BitVec.ofNat K (hammingDistance q c) - e * BitVec.ofNat K 2, commonBits q c)).map fun p => p.2 := by
    rw [List.map_map, List.map_map]
    apply List.map_congr_left
    intro c _
    exact countOnes_masks q c
  have hd' : Rels RelA ((cs.map fun c => (BitVec.ofNat K (hammingDistance q c) - e * BitVec.ofNat K 2, commonBits q c)).map
      fun p => p.1) r := by
    rw [List.map_map]; exact hr
  have := L.compareThresholdMany_wp hK
    (cs.map fun c => (BitVec.ofNat K (hammingDistance q c) - e * BitVec.ofNat K 2, commonBits q c))
    (by simpa using hne) (by
      intro p hp
      obtain ⟨c, -, rfl⟩ := List.mem_map.1 hp
      exact commonBits_le q c) hd' (n := 0) (u := 0) hI'
  rw [← hlen] at this
  refine this.mono ?_
  rintro r st'' ⟨hr, hI''⟩
  rw [List.map_map] at hr
  refine ⟨?_, hI''⟩
  simpa only [Function.comp_def, BitVec.setWidth_eq, offBit] using hr

theorem chunkLoop_off (L : MpcLawful ops RelA RelB Pre Post (fun _ _ => I) Cap msbCost orCost CsOk dotCost) (hK : 15 ≤ K)
    (h : Off ops RelA I e ops')
    {q : IrisCode} {a : Party → List A} (ha : Rels RelA (encode K q.code) a) (css : List (List IrisCode))
    (hne : ∀ cs ∈ css, cs ≠ []) (hm : ∀ cs ∈ css, ∀ c ∈ cs, 8960 ≤ commonBits q c)
    {b : Party → List (List (List A))}
    (hb : Rels (Rels (Rels RelA)) (css.map fun cs => cs.map fun c => encode K c.code) b) (hI : I st) :
    WPS (fun i => Iris.chunkLoop (ops' i) (a i) q.mask ((b i).zip (css.map fun cs => cs.map fun c => c.mask))) st
      (fun r st' => Rels RelB (css.flatten.map fun c => bitOf (offBit e q c)) r ∧ I st') := by
  induction css generalizing b st with
  | nil =>
    rw [hb.eq_nil]
    exact WPS.pure (a := fun _ => []) ⟨Rels.nil, hI⟩
  | cons cs css ih =>
    obtain ⟨b1, b2, k1, k2, rfl⟩ := Rels.uncons hb
    simp only [List.map_cons, List.zip_cons_cons, Iris.chunkLoop]
    refine WPS.bind ((L.compareIrisMany_off hK h ha (hne cs (by simp)) (hm cs (by simp)) k1 hI).mono ?_)
    rintro r st' ⟨hr, hI'⟩
    refine WPS.bind ((ih (fun cs h => hne cs (by simp [h])) (fun cs h => hm cs (by simp [h])) k2 hI').mono ?_)
    rintro r2 st'' ⟨hr2, hI''⟩
    refine WPS.pure (a := fun i => r i ++ r2 i) ⟨?_, hI''⟩
    rw [List.flatten_cons, List.map_append]; exact Rels.append hr hr2

/-- The answer to a query when every dot product is off by `e`. -/
theorem irisInDb_off (L : MpcLawful ops RelA RelB Pre Post (fun _ _ => I) Cap msbCost orCost CsOk dotCost) (hK : 15 ≤ K)
    (h : Off ops RelA I e ops')
    {q : IrisCode} {a : Party → List A} (ha : Rels RelA (encode K q.code) a) {db : List IrisCode} (hne : db ≠ [])
    (hm : ∀ c ∈ db, 8960 ≤ commonBits c q) {b : Party → List (List A)}
    (hb : Rels (Rels RelA) (db.map fun c => encode K c.code) b) {cs : Nat} (hcs : cs ≠ 0)
    (hok : CsOk cs) (hov : (db.length + cs) * (2 * K) < 2 ^ 64) (hcap : ∀ n u, Cap n u) (hP : Pre st) :
    WPS (fun i => Iris.irisInDb (ops' i) (a i) (b i) q.mask (db.map fun c => c.mask) cs) st
      (fun r st' => (∀ i, r i = db.any fun c => offBit e q c) ∧ Post st') := by
  have hlen : db.length ≠ 0 := by simpa using hne
  have hs : ∀ i, (ops' i).precompute = (ops i).precompute ∧ (ops' i).reduceBinaryOr = (ops i).reduceBinaryOr ∧
      (ops' i).verify = (ops i).verify ∧ (ops' i).openBit = (ops i).openBit := fun i => by
    rw [h.same i]; exact ⟨rfl, rfl, rfl, rfl⟩
  unfold Iris.irisInDb
  simp only [hs]
  refine WPS.ite_neg (fun i => by rw [hb.length]; simp [hne]) ?_
  refine WPS.bind (WPS.lift (a := fun _ => queryAnds K db.length cs)
    (fun i => by rw [hb.length, List.length_map]; exact numAndTriples_ok hK hcs hov) ?_)
  refine WPS.bind ((L.precompute hP).mono ?_)
  rintro _ st' hI
  obtain ⟨ch, hch, ech⟩ := Rels.chunksE hb hcs
  refine WPS.bind (WPS.lift ech ?_)
  refine WPS.bind (WPS.lift (a := fun _ => chunksOf cs (db.map fun c => c.mask))
    (fun i => by unfold chunksE; rw [if_neg hcs]) ?_)
  rw [chunksOf_map'] at hch
  have hm' : ∀ ch ∈ chunksOf cs db, ∀ c ∈ ch, 8960 ≤ commonBits q c := fun ch hc c hcc => by
    rw [commonBits_comm]; exact hm c (mem_of_mem_chunksOf hc hcc)
  have hw := L.chunkLoop_off hK h ha (chunksOf cs db) (mem_chunksOf_ne cs db) hm' (b := ch) hch hI
  rw [show chunksOf cs (db.map fun c => c.mask) = (chunksOf cs db).map fun cs => cs.map fun c => c.mask from
    chunksOf_map' _ _ _]
  refine WPS.bind (hw.mono ?_)
  rintro r st'' ⟨hr, hI'⟩
  rw [chunksOf_flatten hcs] at hr
  refine WPS.bind ((L.reduceBinaryOr (n := 0) (u := 0) hcs hok (by simpa using hne) hI' hr).mono ?_)
  rintro s st3 ⟨hs, hI3⟩
  refine WPS.bind (WPS.unwrap ((L.verify (n := 0) (u := 0) hI3 (hcap _ _)).mono ?_))
  rintro _ st4 hP4
  refine (L.openBit hP4 hs).mono ?_
  rintro t st5 ⟨ht, hP5⟩
  refine ⟨fun i => ?_, hP5⟩
  rw [ht i]
  have hb : ∀ b : Bool, bitVal (bitOf b) = b := by decide
  rw [hb, List.any_map]
  congr 1
  funext c
  simp only [Function.comp_def, hb]

end

end MpcLawful

/-- An error of `2^(K-2)` flips the comparison bit. -/
theorem offBit_flip (hK : 15 ≤ K) (q c : IrisCode) :
    MpcLawful.offBit (BitVec.twoPow K (K - 2)) q c = !MpcLawful.closeBit q c := by
  have h := MpcLawful.diff_msb (K := K) (V := K) hK le_rfl q c
  rw [BitVec.setWidth_eq] at h
  rw [← h]
  unfold MpcLawful.offBit
  generalize BitVec.ofNat K (hammingDistance q c) = d
  generalize BitVec.ofNat K (matchThreshold (commonBits q c)) = t
  have hp : (2 : Nat) ^ K = 2 * 2 ^ (K - 1) := by
    rw [← Nat.pow_succ']; congr 1; omega
  have hp2 : (2 : Nat) ^ (K - 1) = 2 * 2 ^ (K - 2) := by
    rw [← Nat.pow_succ']; congr 1; omega
  have h1 : BitVec.twoPow K (K - 2) * BitVec.ofNat K 2 = BitVec.intMin K := by
    apply BitVec.eq_of_toNat_eq
    have : 2 ≤ 2 ^ (K - 1) := by rw [hp2]; have := Nat.two_pow_pos (K - 2); omega
    rw [BitVec.toNat_mul, BitVec.toNat_twoPow, BitVec.toNat_ofNat, BitVec.toNat_intMin,
      Nat.mod_eq_of_lt (a := 2) (by omega), Nat.mod_eq_of_lt (a := 2 ^ (K - 2)) (by have := Nat.two_pow_pos (K - 2); omega),
      hp2, Nat.mul_comm]
  rw [h1, show d - BitVec.intMin K - t = (d - t) - BitVec.intMin K by ring]
  generalize d - t = x
  rw [BitVec.msb_eq_decide, BitVec.msb_eq_decide, BitVec.toNat_sub, BitVec.toNat_intMin]
  have hx := x.isLt
  rw [Nat.mod_eq_of_lt (show 2 ^ (K - 1) < 2 ^ K by have := Nat.two_pow_pos (K - 1); omega)]
  by_cases hc : 2 ^ (K - 1) ≤ x.toNat
  · rw [show 2 ^ K - 2 ^ (K - 1) + x.toNat = (x.toNat - 2 ^ (K - 1)) + 2 ^ K by omega, Nat.add_mod_right,
      Nat.mod_eq_of_lt (by omega)]
    simp [hc]; omega
  · rw [Nat.mod_eq_of_lt (by omega)]
    simp [hc]; omega

namespace MalAby3

open Jmp

variable {G : Prg} {H : Hash}

theorem rush_off (G : Prg) (H : Hash) (hV : 40 ≤ verifWidth K - K) (s : Bool) (e : BitVec (verifWidth K)) :
    MpcLawful.Off (MalAby3.ops G H K s) (SharesOf (K := K)) JmpOk (e.setWidth K)
      (fun i => if i = 0 then rushOps G H K s e i else ops G H K s i) where
  same i := by
    by_cases hi : i = 0
    · simp only [if_pos hi]; rfl
    · simp only [if_neg hi]
  dot := by
    intro st xs a yss masks b hI hx ha hb hl hm
    have := defaultMaskedDotMany_gen (st := st) (R := SharesOf) (zero := AShare.zero K) (num := yss.length)
      (dotMany := fun i a b => if i = 0 then rushDotMany H i (List.replicate a.length e) a b else dotMany H i a b)
      (Q := fun vs c st' => Rels SharesOf (vs.map (· + e.setWidth K)) c ∧ JmpOk st') SharesOf.zero
      (fun {xss yss a b} ha hb hl _ => by
        have := rushDotMany_wp (H := H) hV hI ha hb (hl.imp fun _ _ h => h.1.trans h.2.symm)
          (List.replicate xss.length e) (by simp)
        refine (WPS.congr ?_ this).mono ?_
        · intro i
          simp only [ha.length]
        · rintro c st' ⟨h1, h2⟩
          refine ⟨?_, h2⟩
          convert h1 using 1
          generalize hz : List.zipWith (fun xs ys => (List.zipWith (· * ·) xs ys).sum) xss yss = zs
          have hzl : zs.length = xss.length := by rw [← hz]; simp [hl.length_eq]
          rw [← hzl]
          clear hz hzl
          induction zs with
          | nil => rfl
          | cons z zs ih => simp [List.replicate_succ, ih]) ha hx hb hl hm rfl
    refine (WPS.congr ?_ this).mono ?_
    · intro i
      by_cases hi : i = 0
      · simp only [if_pos hi]; rfl
      · simp only [if_neg hi]; rfl
    · rintro c st' ⟨h1, h2⟩
      refine ⟨?_, h2⟩
      rw [List.map_zipWith] at h1
      exact h1

end MalAby3

end Verif
