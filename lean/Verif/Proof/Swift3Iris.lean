import Verif.Proof.Swift3Ops
import Verif.Spec.Swift3Verify

/-! # Swift3: set-up and the iris protocol, honest parties -/

namespace Verif

variable {G : Prg} {K L : Nat}

namespace Swift3

variable {st : Party → S3St G K} {u v : Nat} {w : DotCount} {H : Hash}

/-! ## Set-up -/

/-- What a party receives from the lower of the other two, which sends `x` to its lower, `y` to its higher partner. -/
def from1 {X : Type} (x y : Party → X) : Party → X
  | 0 => x 1
  | 1 => x 0
  | 2 => y 0

/-- The same for the higher of the other two. -/
def from2 {X : Type} (x y : Party → X) : Party → X
  | 0 => x 2
  | 1 => y 2
  | 2 => y 1

theorem othersWays {σ α : Type} {x y : Party → Bytes} {k : Party → Bytes → Bytes → Proto σ α} {st : Party → σ}
    {Q : (Party → α) → (Party → σ) → Prop} (h : WPS (fun i => k i (from1 x y i) (from2 x y i)) st Q) :
    WPS (fun i => (do
      Proto.net (netSend i (otherIds i).1 (x i))
      Proto.net (netSend i (otherIds i).2 (y i))
      let a ← Proto.net (netRecv i (otherIds i).1)
      let b ← Proto.net (netRecv i (otherIds i).2)
      k i a b)) st Q := by
  apply WPS.of3
  show R3 (.send 1 (x 0) (.send 2 (y 0) (.recv 1 fun a => .recv 2 fun b => k 0 a b (st 0))))
    (.send 0 (x 1) (.send 2 (y 1) (.recv 0 fun a => .recv 2 fun b => k 1 a b (st 1))))
    (.send 0 (x 2) (.send 1 (y 2) (.recv 0 fun a => .recv 1 fun b => k 2 a b (st 2)))) [] [] [] [] [] [] _
  run3
  exact R3.joint rfl rfl rfl h

/-- Exclusive or of byte strings. -/
def xorB (a b : Bytes) : Bytes := List.zipWith (fun a b => b ^^^ a) a b

/-- The keys of the pairwise generators and of the common one. -/
def setupPrf (s0 s1 s2 : Party → Bytes) : Party → S3Prf G
  | 0 => .new (xorB (s0 0) (s0 1)) (xorB (s1 0) (s0 2)) (List.zipWith (fun a (p : Byte × Byte) => p.1 ^^^ a ^^^ p.2) (s2 0) ((s2 1).zip (s2 2)))
  | 1 => .new (xorB (s1 1) (s1 2)) (xorB (s0 1) (s0 0)) (List.zipWith (fun a (p : Byte × Byte) => p.1 ^^^ a ^^^ p.2) (s2 1) ((s2 0).zip (s2 2)))
  | 2 => .new (xorB (s0 2) (s1 0)) (xorB (s1 2) (s1 1)) (List.zipWith (fun a (p : Byte × Byte) => p.1 ^^^ a ^^^ p.2) (s2 2) ((s2 0).zip (s2 1)))

theorem xorB_comm (a b : Bytes) : xorB a b = xorB b a := by
  unfold xorB; rw [List.zipWith_comm]; simp only [BitVec.xor_comm]

theorem xor3_perm (f : Party → Bytes) (a b c : Party) :
    List.zipWith (fun a (p : Byte × Byte) => p.1 ^^^ a ^^^ p.2) (f a) ((f b).zip (f c)) =
      List.zipWith (fun a (p : Byte × Byte) => p.1 ^^^ a ^^^ p.2) (f b) ((f a).zip (f c)) ∧
    List.zipWith (fun a (p : Byte × Byte) => p.1 ^^^ a ^^^ p.2) (f a) ((f b).zip (f c)) =
      List.zipWith (fun a (p : Byte × Byte) => p.1 ^^^ a ^^^ p.2) (f a) ((f c).zip (f b)) := by
  generalize f a = x; generalize f b = y; generalize f c = z
  constructor
  · induction x generalizing y z with
    | nil => cases y <;> simp
    | cons a x ih => cases y with
      | nil => simp
      | cons b y => cases z with
        | nil => simp
        | cons c z => simp only [List.zip_cons_cons, List.zipWith_cons_cons, ih, BitVec.xor_comm a b]
  · induction x generalizing y z with
    | nil => simp
    | cons a x ih => cases y with
      | nil => cases z <;> simp
      | cons b y => cases z with
        | nil => simp
        | cons c z =>
          simp only [List.zip_cons_cons, List.zipWith_cons_cons, ih y z]
          congr 1
          bitwise

theorem setupPrf_ok (s0 s1 s2 : Party → Bytes) : S3PrfOk (setupPrf (G := G) s0 s1 s2) := by
  refine prf_mk ?_ ?_ ?_ ?_ ?_ <;> simp only [setupPrf, S3Prf.new] <;> congr 1
  · exact xorB_comm _ _
  · exact xorB_comm _ _
  · exact xorB_comm _ _
  · exact (xor3_perm s2 1 0 2).1
  · rw [(xor3_perm s2 2 0 1).1, (xor3_perm s2 0 2 1).2]

theorem bytes8 (l : Bytes) : ringSliceToBytes (K := 8) l = l := by
  induction l with
  | nil => rfl
  | cons x l ih =>
    have : toBytes x = [x] := by simp [toBytes, byteLen, beBytes]
    rw [ringSliceToBytes, List.flatMap_cons, this, ← ringSliceToBytes, ih]; rfl

theorem split4 {a b c d : Bytes} {n m : Nat} (ha : a.length = n) (hb : b.length = m) (hc : c.length = n) :
    (a ++ b ++ c ++ d).take n = a ∧ ((a ++ b ++ c ++ d).drop n).take m = b ∧
      ((a ++ b ++ c ++ d).drop (n + m)).take n = c ∧ (a ++ b ++ c ++ d).drop (2 * n + m) = d := by
  refine ⟨?_, ?_, ?_, ?_⟩
  · rw [List.append_assoc, List.append_assoc, List.take_left' ha]
  · rw [List.append_assoc, List.append_assoc, List.drop_left' ha, List.take_left' hb]
  · rw [List.append_assoc, List.drop_left' (by simp [ha, hb]), List.take_left' hc]
  · rw [List.drop_left' (by simp [ha, hb, hc]; omega)]

theorem from1_map {X Y : Type} (f : X → Y) (x y : Party → X) (i : Party) :
    from1 (fun i => f (x i)) (fun i => f (y i)) i = f (from1 x y i) := by fin_cases i <;> rfl
theorem from2_map {X Y : Type} (f : X → Y) (x y : Party → X) (i : Party) :
    from2 (fun i => f (x i)) (fun i => f (y i)) i = f (from2 x y i) := by fin_cases i <;> rfl

theorem setup_wp (s0 s1 s2 r0 r1 r2 : Party → Bytes) (h0 : ∀ i, (s0 i).length = 32) (h1 : ∀ i, (s1 i).length = 32)
    (h2 : ∀ i, (s2 i).length = 32) (k0 : ∀ i, (r0 i).length = 32) (k1 : ∀ i, (r1 i).length = 32)
    (k2 : ∀ i, (r2 i).length = 32) (st : Party → S3St G K) :
    WPS (fun i => setupPrfFromSeed H i (s0 i) (s1 i) (s2 i) (r0 i) (r1 i) (r2 i)) st
      (fun _ st' => ∀ i, st' i = { st i with prf := setupPrf s0 s1 s2 i }) := by
  unfold setupPrfFromSeed
  refine othersWays (x := fun i => (Commitment.commit H (K := 8) (s0 i) (r0 i)).comm ++ (Commitment.commit H (K := 8) (s2 i) (r2 i)).comm)
    (y := fun i => (Commitment.commit H (K := 8) (s1 i) (r1 i)).comm ++ (Commitment.commit H (K := 8) (s2 i) (r2 i)).comm) ?_
  have e1 : ∀ i, from1 (fun i => (Commitment.commit H (K := 8) (s0 i) (r0 i)).comm ++ (Commitment.commit H (K := 8) (s2 i) (r2 i)).comm)
      (fun i => (Commitment.commit H (K := 8) (s1 i) (r1 i)).comm ++ (Commitment.commit H (K := 8) (s2 i) (r2 i)).comm) i =
      (Commitment.commit H (K := 8) (from1 s0 s1 i) (from1 r0 r1 i)).comm ++
        (Commitment.commit H (K := 8) (from1 s2 s2 i) (from1 r2 r2 i)).comm := by
    intro i; fin_cases i <;> rfl
  have e2 : ∀ i, from2 (fun i => (Commitment.commit H (K := 8) (s0 i) (r0 i)).comm ++ (Commitment.commit H (K := 8) (s2 i) (r2 i)).comm)
      (fun i => (Commitment.commit H (K := 8) (s1 i) (r1 i)).comm ++ (Commitment.commit H (K := 8) (s2 i) (r2 i)).comm) i =
      (Commitment.commit H (K := 8) (from2 s0 s1 i) (from2 r0 r1 i)).comm ++
        (Commitment.commit H (K := 8) (from2 s2 s2 i) (from2 r2 r2 i)).comm := by
    intro i; fin_cases i <;> rfl
  simp only [e1, e2]
  have hcl : ∀ s r, (Commitment.commit H (K := 8) s r).comm.length = Commitment.commSize := fun s r => by
    simp [Commitment.commit, H.len, Commitment.commSize]
  refine WPS.ite_neg (fun i => by simp [hcl]; omega) ?_
  simp only [List.take_left' (hcl _ _), List.drop_left' (hcl _ _)]
  refine othersWays (x := fun i => ringSliceToBytes (K := 8) (s0 i) ++ r0 i ++ ringSliceToBytes (K := 8) (s2 i) ++ r2 i)
    (y := fun i => ringSliceToBytes (K := 8) (s1 i) ++ r1 i ++ ringSliceToBytes (K := 8) (s2 i) ++ r2 i) ?_
  simp only [bytes8]
  have f1 : ∀ i, from1 (fun i => s0 i ++ r0 i ++ s2 i ++ r2 i) (fun i => s1 i ++ r1 i ++ s2 i ++ r2 i) i =
      from1 s0 s1 i ++ from1 r0 r1 i ++ from1 s2 s2 i ++ from1 r2 r2 i := by intro i; fin_cases i <;> rfl
  have f2 : ∀ i, from2 (fun i => s0 i ++ r0 i ++ s2 i ++ r2 i) (fun i => s1 i ++ r1 i ++ s2 i ++ r2 i) i =
      from2 s0 s1 i ++ from2 r0 r1 i ++ from2 s2 s2 i ++ from2 r2 r2 i := by intro i; fin_cases i <;> rfl
  simp only [f1, f2]
  have L1 : ∀ {a b : Party → Bytes}, (∀ i, (a i).length = 32) → (∀ i, (b i).length = 32) → ∀ i, (from1 a b i).length = 32 := by
    intro a b ha hb i; fin_cases i <;> simp [from1, ha, hb]
  have L2 : ∀ {a b : Party → Bytes}, (∀ i, (a i).length = 32) → (∀ i, (b i).length = 32) → ∀ i, (from2 a b i).length = 32 := by
    intro a b ha hb i; fin_cases i <;> simp [from2, ha, hb]
  simp only [h0]
  refine WPS.ite_neg (fun i => by
    simp [L1 h0 h1, L1 k0 k1, L1 h2 h2, L1 k2 k2, L2 h0 h1, L2 k0 k1, L2 h2 h2, L2 k2 k2, Commitment.randSize]) ?_
  have t1 : ∀ i, _ := fun i => split4 (d := from1 r2 r2 i) (L1 h0 h1 i) (L1 k0 k1 i) (L1 h2 h2 i)
  have t2 : ∀ i, _ := fun i => split4 (d := from2 r2 r2 i) (L2 h0 h1 i) (L2 k0 k1 i) (L2 h2 h2 i)
  have hrs : Commitment.randSize = 32 := rfl
  simp only [hrs, (t1 _).1, (t1 _).2.1, (t1 _).2.2.1, (t1 _).2.2.2, (t2 _).1, (t2 _).2.1, (t2 _).2.2.1, (t2 _).2.2.2]
  refine WPS.ite_neg (fun i => by simp [MalAby3.verifyCommitment, CommitOpening.verify, Commitment.commit]) ?_
  refine WPS.ite_neg (fun i => by simp [MalAby3.verifyCommitment, CommitOpening.verify, Commitment.commit]) ?_
  refine WPS.step fun i => ?_
  fin_cases i <;> rfl

/-- A new instance after set-up is in a consistent state. -/
theorem setup_ok {s0 s1 s2 : Party → Bytes} {p : Party → S3Prf G} {st' : Party → S3St G K}
    (h : ∀ i, st' i = { (Swift3.new (p i) : S3St G K) with prf := setupPrf s0 s1 s2 i }) : S3Ok 0 0 ⟨0, 0⟩ st' := by
  obtain rfl := funext h
  refine ⟨setupPrf_ok s0 s1 s2, queues_mk rfl rfl rfl rfl rfl rfl, fun i => ⟨⟨[], ?_⟩, rfl⟩, fun i => ⟨⟨[], ?_⟩, rfl⟩,
    fun i => ⟨⟨[], ?_⟩, rfl⟩, fun i => ⟨?_, rfl, rfl⟩⟩
  · exact ⟨by simp, rfl, rfl, rfl⟩
  · exact ⟨by simp, rfl, rfl, rfl⟩
  · exact ⟨by simp, rfl, rfl, rfl⟩
  · intro k g hg
    simp [Swift3.new, DProof.empty] at hg

/-! ## The iris protocol -/

theorem filterFold_rel {xs : List (BitVec K)} {a : Party → List (S3Share K)} {t : BitVec K} {acc : Party → S3Share K}
    (bs : List Bool) (hacc : S3SharesOf t acc) (ha : Rels S3SharesOf xs a) (hl : xs.length = bs.length) :
    S3SharesOf (t + maskedSum bs xs)
      (fun i => (((a i).zip bs).filter (·.2)).foldl (fun acc p => acc.add p.1) (acc i)) := by
  induction xs generalizing a t acc bs with
  | nil => rw [ha.eq_nil]; simpa [maskedSum] using hacc
  | cons x xs ih =>
    cases bs with
    | nil => simp at hl
    | cons b bs =>
      obtain ⟨a1, a2, h1, h2, rfl⟩ := ha.uncons
      cases b
      · have := ih bs hacc h2 (by simpa using hl)
        simpa [maskedSum] using this
      · have := ih bs (hacc.add h1) h2 (by simpa using hl)
        simpa [maskedSum, BitVec.add_assoc] using this

theorem filterReduce_rel (m : IrisCodeArray) {xs ys : List (BitVec K)} {a b : Party → List (S3Share K)}
    (ha : Rels S3SharesOf xs a) (hb : Rels S3SharesOf ys b) (hx : xs.length = irisCodeSize) (hy : ys.length = irisCodeSize) :
    ∃ c d : Party → S3Share K, S3SharesOf (maskedSum (IrisCodeArray.bitList m) xs) c ∧
      S3SharesOf (maskedSum (IrisCodeArray.bitList m) ys) d ∧
      ∀ i, S3Share.filterReduceAddTwice (a i) (b i) m = .ok (c i, d i) := by
  have k : ∀ {zs : List (BitVec K)} {c : Party → List (S3Share K)}, Rels S3SharesOf zs c → zs.length = irisCodeSize →
      S3SharesOf (maskedSum (IrisCodeArray.bitList m) zs) (fun i => S3Share.filterSum (c i) m) := by
    intro zs c hc hz
    have := filterFold_rel (IrisCodeArray.bitList m) S3SharesOf.zero hc (by rw [hz, Aby3.bitList_length])
    rw [zero_add] at this
    unfold S3Share.filterSum
    rw [C17_bits]
    exact this
  refine ⟨_, _, k ha hx, k hb hy, fun i => ?_⟩
  unfold S3Share.filterReduceAddTwice
  rw [if_neg]
  rw [List.isEmpty_iff]
  rintro (h | h)
  · have := ha.length i
    rw [h, hx] at this; simp [irisCodeSize] at this
  · exact h (by rw [ha.length, hb.length, hx, hy])

/-- The number of AND-gate bits used by `get_msb_many` on `n` values. -/
def msbCost (K n : Nat) : Nat := K * n * (2 + 2 * ceilLog2 K)
/-- The number of AND-gate bits used by `reduce_binary_or` on `n` bits. -/
def orCost (n : Nat) : Nat := 128 * ((n + 127) / 128 - 1) + 127

theorem addMany_replicate (w : DotCount) (h : w.size ≤ irisCodeSize) (lens : List Nat) (hl : ∀ n ∈ lens, n = irisCodeSize) :
    (w.addMany lens).n = w.n + lens.length ∧ (w.addMany lens).size ≤ irisCodeSize ∧
      (w.size = irisCodeSize ∨ lens ≠ [] → (w.addMany lens).size = irisCodeSize) := by
  induction lens generalizing w with
  | nil => exact ⟨rfl, h, fun h => h.resolve_right (by simp)⟩
  | cons n lens ih =>
    have hn := hl n (by simp)
    have := ih (w.add n) (by simp only [DotCount.add]; omega) (fun k hk => hl k (by simp [hk]))
    refine ⟨?_, this.2.1, fun _ => this.2.2 (.inl (by simp only [DotCount.add]; omega))⟩
    show ((w.add n).addMany lens).n = _
    rw [this.1]
    simp only [DotCount.add, List.length_cons]
    omega

/-- The state in the middle of a query, with `a` further AND-gate bits and `d` further dot products. -/
def Mid (u0 v : Nat) (w0 : DotCount) (a d : Nat) (st : Party → S3St G K) : Prop :=
  ∃ size, (size ≤ irisCodeSize ∧ (d ≠ 0 → size = irisCodeSize)) ∧ S3Ok (u0 + a) v ⟨w0.n + d, size⟩ st

/-- The laws, except that nothing is said about `verify` (its requirement is `False`). The invariant counts AND-gate
bits with weight `x` and dot products with weight `y`. -/
theorem mpcLawful (G : Prg) (H : Hash) (hK : 0 < K) (s : Bool) (verify : Party → Proto (S3St G K) Unit) (u0 v : Nat)
    (w0 : DotCount) (x y : Nat) :
    MpcLawful (fun i => Swift3.ops G H K s (verify i) i) (S3SharesOf (K := K)) S3BinSharesOf
      (fun st => Mid u0 v w0 0 0 st) (fun st => ∃ u w, S3Ok u v w st)
      (fun _ u st => ∃ a d, Mid u0 v w0 a d st ∧ x * a + y * d = u) (fun _ _ => False)
      (fun n => x * msbCost K n) (fun n => x * orCost n) (fun _ => True) (fun n => y * n) where
  maskedDotMany := by
    intro n u st xs a yss masks b ⟨p, d, ⟨sz, hsz, hI⟩, hu⟩ hx ha hb hl hm _
    refine (defaultMaskedDotMany_sized (P := fun st => ∃ a d, Mid u0 v w0 a d st ∧ x * a + y * d = u + y * yss.length)
      (R := S3SharesOf) (zero := S3Share.zero K) (num := yss.length)
      (dotMany := fun i => dotMany i) S3SharesOf.zero (fun {xss yss' a b} ha hb hl hnum => ?_) ha hx hb hl hm rfl).mono
      fun _ _ h => h
    refine (dotMany_wp hI ha hb hl.length_eq).mono fun c st' h => ⟨h.1, p, d + yss.length, ?_, ?_⟩
    · have hw := addMany_replicate ⟨w0.n + d, sz⟩ hsz.1 (List.zipWith (fun xs ys => min xs.length ys.length) xss yss') (by
        intro k hk
        obtain ⟨i, hi, rfl⟩ := List.mem_iff_getElem.1 hk
        rw [List.length_zipWith] at hi
        have := (List.forall₂_iff_get.1 hl).2 i (by omega) (by omega)
        simp only [List.get_eq_getElem] at this
        rw [List.getElem_zipWith, this.1, this.2, Nat.min_self])
      have hlen : (List.zipWith (fun xs ys => min xs.length ys.length) xss yss').length = yss.length := by
        rw [List.length_zipWith, hl.length_eq, Nat.min_self, hnum]
      refine ⟨_, ⟨hw.2.1, fun hd => hw.2.2 ?_⟩, ?_⟩
      · by_cases h0 : d = 0
        · refine .inr fun he => ?_
          rw [he] at hlen
          simp only [List.length_nil] at hlen
          omega
        · exact .inl (hsz.2 h0)
      rw [hlen] at hw
      rw [← Nat.add_assoc, ← hw.1]
      exact h.2
    · rw [← hu]; ring
  filter := by
    intro p q m a b ha hb
    exact filterReduce_rel m ha hb (MpcLawful.encode_length p) (MpcLawful.encode_length q)
  add := fun ha hb => ha.add hb
  sub := fun ha hb => ha.sub hb
  mulConst := fun c _ ha => by
    have := ha.mulConst c
    rw [BitVec.ofNat_toNat, BitVec.setWidth_eq]; exact this
  subConst := fun c _ _ ha => by
    have := ha.subConst c
    rw [BitVec.ofNat_toNat, BitVec.setWidth_eq]; exact this
  getMsb := fun {n u st z a} ⟨p, d, ⟨sz, hsz, hI⟩, hu⟩ ha => (getMsb_wp hK hI ha).mono fun r st' ⟨h, hI'⟩ =>
    ⟨by rw [BitVec.setWidth_eq]; exact h, _, _, d, ⟨sz, hsz, by rw [Nat.add_assoc] at hI'; exact hI'⟩, rfl⟩
  getMsbMany := fun {n u st xs a} hne ⟨p, d, ⟨sz, hsz, hI⟩, hu⟩ ha => (getMsbMany_wp hK hI ha).mono fun r st' ⟨h, hI'⟩ =>
    ⟨by simp only [BitVec.setWidth_eq]; exact h, _, d, ⟨sz, hsz, by rw [Nat.add_assoc] at hI'; exact hI'⟩, by
      rw [← hu]; simp only [msbCost]; ring⟩
  reduceBinaryOr := fun hcs _ hne ⟨p, d, ⟨sz, hsz, hI⟩, hu⟩ ha => (reduceBinaryOr_wp hcs hne hI ha).mono fun r st' ⟨h, hI'⟩ =>
    ⟨h, _, d, ⟨sz, hsz, by rw [Nat.add_assoc] at hI'; exact hI'⟩, by
      rw [← hu]; simp only [orCost]; ring⟩
  precompute := fun h => WPS.pure (a := fun _ => ()) ⟨0, 0, h, by simp⟩
  verify := fun _ h => h.elim
  openBit := fun ⟨u, w, hI⟩ hs => (openBit_wp hs hI).mono fun r st' h => ⟨h.1, u, w, h.2⟩

end Swift3

namespace MpcLawful

variable {σ A B : Type} {K V : Nat} {ops : Party → MpcOps σ A B K} {RelA : BitVec V → (Party → A) → Prop}
  {RelB : BitVec 1 → (Party → B) → Prop} {Pre Post : (Party → σ) → Prop} {Inv : Nat → Nat → (Party → σ) → Prop}
  {Cap : Nat → Nat → Prop} {msbCost orCost : Nat → Nat} {CsOk : Nat → Prop} {dotCost : Nat → Nat}
  {n u : Nat} {st : Party → σ}

theorem irisInDb_eq (ops : MpcOps σ A B K) (a : List A) {b : List (List A)} (hb : b ≠ []) (mask : IrisCodeArray)
    (masks : List IrisCodeArray)
    (hl : b.length = masks.length) (cs : Nat) :
    Iris.irisInDb ops a b mask masks cs = (do
      let res ← Iris.queryBody ops a b mask masks cs
      Proto.unwrap ops.verify
      ops.openBit res) := by
  unfold Iris.irisInDb Iris.queryBody
  rw [if_neg (by
    rintro (h | h)
    · exact h hl
    · exact hb (List.length_eq_zero_iff.1 h))]
  simp only [bind_assoc]

theorem queryBody_wp (L : MpcLawful ops RelA RelB Pre Post Inv Cap msbCost orCost CsOk dotCost) (hK : 15 ≤ K) (hV : K ≤ V)
    {q : IrisCode} {a : Party → List A} (ha : Rels RelA (encode V q.code) a) {db : List IrisCode} (hne : db ≠ [])
    (hm : ∀ c ∈ db, 8960 ≤ commonBits c q) {b : Party → List (List A)}
    (hb : Rels (Rels RelA) (db.map fun c => encode V c.code) b) {cs : Nat} (hcs : cs ≠ 0)
    (hok : CsOk cs) (hov : (db.length + cs) * (2 * K) < 2 ^ 64) (hP : Pre st) :
    WPS (fun i => Iris.queryBody (ops i) (a i) (b i) q.mask (db.map fun c => c.mask) cs) st
      (fun s st' => RelB (bitOf (inDb q db)) s ∧
        Inv (queryAnds K db.length cs) (queryCost (fun n => msbCost n + dotCost n) orCost db.length cs) st') := by
  have hany : (db.map fun c => bitOf (closeBit q c)).any bitVal = inDb q db := by
    have hb : ∀ b : Bool, bitVal (bitOf b) = b := by decide
    rw [List.any_map, inDb]
    congr 1
    funext c
    simp only [Function.comp_def, hb, closeBit]
    rw [hammingDistance_comm, commonBits_comm]
  unfold Iris.queryBody
  refine WPS.bind (WPS.lift (a := fun _ => queryAnds K db.length cs)
    (fun i => by rw [hb.length, List.length_map]; exact numAndTriples_ok hK hcs hov) ?_)
  refine WPS.bind ((L.precompute hP).mono ?_)
  rintro _ st' hI
  obtain ⟨ch, hch, ech⟩ := Rels.chunksE hb hcs
  refine WPS.bind (WPS.lift ech ?_)
  refine WPS.bind (WPS.lift (a := fun _ => chunksOf cs (db.map fun c => c.mask))
    (fun i => by unfold chunksE; rw [if_neg hcs]) ?_)
  rw [chunksOf_map'] at hch
  have hm' : ∀ ch ∈ chunksOf cs db, ∀ c ∈ ch, 8960 ≤ commonBits q c := fun ch hc c hcc => by
    rw [commonBits_comm]; exact hm c (mem_of_mem_chunksOf hc hcc)
  have hw := L.chunkLoop_wp hK hV ha (chunksOf cs db) (mem_chunksOf_ne cs db) hm' (b := ch) hch hI
  rw [show chunksOf cs (db.map fun c => c.mask) = (chunksOf cs db).map fun cs => cs.map fun c => c.mask from
    chunksOf_map' _ _ _]
  refine WPS.bind (hw.mono ?_)
  rintro r st'' ⟨hr, hI'⟩
  rw [chunksOf_flatten hcs] at hr
  refine (L.reduceBinaryOr hcs hok (by simpa using hne) hI' hr).mono ?_
  rintro s st3 ⟨hs, hI3⟩
  rw [List.length_map, Nat.zero_add, chunks_cost (fun n => msbCost n + dotCost n)] at hI3
  rw [hany] at hs
  exact ⟨hs, hI3⟩

end MpcLawful
end Verif
