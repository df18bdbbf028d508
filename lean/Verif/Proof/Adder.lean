import Verif.Proof.Ring

/-! # Carry-lookahead and full-adder arithmetic on bit vectors -/

namespace Verif

/-- Carry out of position `j` produced by the `n` positions ending in `j`. -/
def cw (p g : Nat → Bool) : Nat → Nat → Bool
  | 0, _ => false
  | _ + 1, 0 => g 0
  | n + 1, j + 1 => g (j + 1) ^^ (p (j + 1) && cw p g n j)

/-- All of the `n` positions ending in `j` propagate (positions below 0 do not). -/
def pw (p : Nat → Bool) : Nat → Nat → Bool
  | 0, _ => true
  | n + 1, 0 => p 0 && decide (n = 0)
  | n + 1, j + 1 => p (j + 1) && pw p n j

theorem cw_add (p g : Nat → Bool) (m n j : Nat) :
    cw p g (m + n) j = (cw p g m j ^^ (pw p m j && (decide (m ≤ j) && cw p g n (j - m)))) := by
  induction m generalizing j with
  | zero => simp [cw, pw]
  | succ m ih =>
    rw [show m + 1 + n = (m + n) + 1 by omega]
    cases j with
    | zero => simp [cw]
    | succ j =>
      simp only [cw, pw, ih, Nat.add_le_add_iff_right, Nat.add_sub_add_right]
      cases g (j + 1) <;> cases p (j + 1) <;> simp

theorem pw_add (p : Nat → Bool) (m n j : Nat) (hn : 0 < n) :
    pw p (m + n) j = (pw p m j && (decide (m ≤ j) && pw p n (j - m))) := by
  induction m generalizing j with
  | zero => simp [pw]
  | succ m ih =>
    rw [show m + 1 + n = (m + n) + 1 by omega]
    cases j with
    | zero => simp [pw]; omega
    | succ j =>
      simp only [pw, ih, Nat.add_le_add_iff_right, Nat.add_sub_add_right, Bool.and_assoc]

theorem cw_eq_carry {K : Nat} (s c : BitVec K) (n j : Nat) (h : j < n) :
    cw (fun j => s.getLsbD j ^^ c.getLsbD j) (fun j => s.getLsbD j && c.getLsbD j) n j
      = BitVec.carry (j + 1) s c false := by
  induction j generalizing n with
  | zero =>
    cases n with
    | zero => omega
    | succ n =>
      rw [BitVec.carry_succ]
      simp only [cw, BitVec.carry_zero]
      cases s.getLsbD 0 <;> cases c.getLsbD 0 <;> rfl
  | succ j ih =>
    cases n with
    | zero => omega
    | succ n =>
      rw [BitVec.carry_succ, ← ih n (by omega)]
      simp only [cw]
      generalize cw _ _ n j = r
      cases s.getLsbD (j + 1) <;> cases c.getLsbD (j + 1) <;> cases r <;> rfl

/-- The low shift by one works for every width (also for single bits). -/
theorem ringShl_one {K : Nat} (x : BitVec K) : ringShl x 1 = x <<< 1 := by
  unfold ringShl
  split
  · rename_i h
    subst h
    apply BitVec.eq_of_getLsbD_eq
    intro i hi
    rw [BitVec.getLsbD_shiftLeft]
    have : i = 0 := by omega
    subst this; simp
  · rcases Nat.lt_trichotomy K 1 with h | h | h
    · have : K = 0 := by omega
      subst this
      exact BitVec.eq_of_getLsbD_eq (fun i hi => absurd hi (by omega))
    · omega
    · rw [Nat.mod_eq_of_lt h]

theorem ringShl_of_lt {K : Nat} (x : BitVec K) {n : Nat} (h0 : 0 < n) (h : n < K) :
    ringShl x n = x <<< n := by
  unfold ringShl
  rw [if_neg (by omega), Nat.mod_eq_of_lt h]

/-- One Kogge–Stone round. -/
def ksStep {K : Nat} (i : Nat) (pg : BitVec K × BitVec K) : BitVec K × BitVec K :=
  (pg.1 &&& ringShl pg.1 (2 ^ i), pg.2 ^^^ (pg.1 &&& ringShl pg.2 (2 ^ i)))

/-- `n` rounds from round `i`. -/
def ksLoop {K : Nat} : Nat → Nat → BitVec K × BitVec K → BitVec K × BitVec K
  | 0, _, pg => pg
  | n + 1, i, pg => ksLoop n (i + 1) (ksStep i pg)

theorem ksStep_spec {K : Nat} (p0 g0 : Nat → Bool) (i : Nat) (hi : 2 ^ i < K) (pg : BitVec K × BitVec K)
    (hp : ∀ j, j < K → pg.1.getLsbD j = pw p0 (2 ^ i) j)
    (hg : ∀ j, j < K → pg.2.getLsbD j = cw p0 g0 (2 ^ i) j) :
    (∀ j, j < K → (ksStep i pg).1.getLsbD j = pw p0 (2 ^ (i + 1)) j) ∧
    (∀ j, j < K → (ksStep i pg).2.getLsbD j = cw p0 g0 (2 ^ (i + 1)) j) := by
  have hpos : 0 < 2 ^ i := Nat.two_pow_pos i
  constructor
  · intro j hj
    rw [pow_succ, mul_two, pw_add _ _ _ _ hpos]
    simp only [ksStep, ringShl_of_lt _ hpos hi, BitVec.getLsbD_and, BitVec.getLsbD_shiftLeft]
    rw [hp j hj]
    by_cases h : j < 2 ^ i
    · simp [h, Nat.not_le.2 h]
    · rw [hp _ (by omega)]
      simp [h, hj, Nat.not_lt.1 h]
  · intro j hj
    rw [pow_succ, mul_two, cw_add]
    simp only [ksStep, ringShl_of_lt _ hpos hi, BitVec.getLsbD_and, BitVec.getLsbD_xor,
      BitVec.getLsbD_shiftLeft]
    rw [hp j hj, hg j hj]
    by_cases h : j < 2 ^ i
    · simp [h, Nat.not_le.2 h]
    · rw [hg _ (by omega)]
      simp [h, hj, Nat.not_lt.1 h]

theorem ksLoop_spec {K : Nat} (p0 g0 : Nat → Bool) (n i : Nat) (hi : ∀ l, l < i + n → 2 ^ l < K)
    (pg : BitVec K × BitVec K)
    (hp : ∀ j, j < K → pg.1.getLsbD j = pw p0 (2 ^ i) j)
    (hg : ∀ j, j < K → pg.2.getLsbD j = cw p0 g0 (2 ^ i) j) :
    ∀ j, j < K → (ksLoop n i pg).2.getLsbD j = cw p0 g0 (2 ^ (i + n)) j := by
  induction n generalizing i pg with
  | zero => simpa [ksLoop] using hg
  | succ n ih =>
    obtain ⟨h1, h2⟩ := ksStep_spec p0 g0 i (hi i (by omega)) pg hp hg
    have := ih (i + 1) (fun l hl => hi l (by omega)) (ksStep i pg) h1 h2
    rw [show i + (n + 1) = i + 1 + n by omega]
    exact this

theorem two_pow_lt_of_lt_ceilLog2 {K l : Nat} (h : l < ceilLog2 K) : 2 ^ l < K := by
  obtain ⟨-, h2, h3⟩ := ceilLog2Loop_spec (K - 1) 0
  rw [Nat.sub_zero] at h3 h2
  change 0 < K - 1 → 2 ^ ceilLog2 K ≤ 2 * (K - 1) at h3
  by_cases hK : 0 < K - 1
  · have h4 := h3 hK
    have h5 : 2 ^ (l + 1) ≤ 2 ^ ceilLog2 K := Nat.pow_le_pow_right (by omega) h
    rw [pow_succ] at h5
    omega
  · have : ceilLog2 K = 0 := by
      unfold ceilLog2
      rw [show K - 1 = 0 by omega, ceilLog2Loop]; simp
    omega

theorem le_two_pow_ceilLog2 (K : Nat) : K ≤ 2 ^ ceilLog2 K := by
  obtain ⟨-, h2, -⟩ := ceilLog2Loop_spec (K - 1) 0
  change K - 1 < 2 ^ (ceilLog2 K - 0) at h2
  rw [Nat.sub_zero] at h2
  omega

/-- The Kogge–Stone adder adds. -/
theorem ks_add {K : Nat} (s c : BitVec K) :
    (s ^^^ c) ^^^ ringShl (ksLoop (ceilLog2 K) 0 (s ^^^ c, s &&& c)).2 1 = s + c := by
  apply BitVec.eq_of_getLsbD_eq
  intro j hj
  rw [BitVec.getLsbD_add hj, BitVec.getLsbD_xor, BitVec.getLsbD_xor, ringShl_one,
    BitVec.getLsbD_shiftLeft]
  have key := ksLoop_spec (K := K) (fun j => s.getLsbD j ^^ c.getLsbD j)
    (fun j => s.getLsbD j && c.getLsbD j) (ceilLog2 K) 0
    (fun l hl => two_pow_lt_of_lt_ceilLog2 (by omega)) (s ^^^ c, s &&& c)
    (by intro j _; cases j <;> simp [pw]) (by intro j _; cases j <;> simp [cw])
  cases j with
  | zero => simp
  | succ j =>
    rw [Nat.add_sub_cancel, key j (by omega),
      cw_eq_carry s c _ j (lt_of_lt_of_le (show j < K by omega) (by
        rw [Nat.zero_add]; exact le_two_pow_ceilLog2 K))]
    cases s.getLsbD (j + 1) <;> cases c.getLsbD (j + 1) <;> simp [hj]

theorem nat_xor_add_two_mul_and (a b : Nat) : (a ^^^ b) + 2 * (a &&& b) = a + b := by
  induction a using Nat.strong_induction_on generalizing b with
  | _ a ih =>
    by_cases ha : a = 0
    · subst ha; simp
    · have h := ih (a / 2) (by omega) (b / 2)
      have h1 := Nat.div_add_mod (a ^^^ b) 2
      have h2 := Nat.div_add_mod (a &&& b) 2
      rw [Nat.xor_div_two] at h1
      rw [Nat.and_div_two] at h2
      have h3 := Nat.xor_mod_two_eq_one (a := a) (b := b)
      have h4 := Nat.and_mod_two_eq_one (a := a) (b := b)
      omega

/-- A full adder reduces three summands to two. -/
theorem full_adder {K : Nat} (x1 x2 x3 : BitVec K) :
    (x1 ^^^ (x2 ^^^ x3)) + ((((x1 ^^^ x3) &&& (x2 ^^^ x3)) ^^^ x3) <<< 1) = x1 + x2 + x3 := by
  have bit : ∀ (a b : BitVec K), a + b = (a ^^^ b) + ((a &&& b) <<< 1) := by
    intro a b
    apply BitVec.eq_of_toNat_eq
    rw [BitVec.toNat_add, BitVec.toNat_add, BitVec.toNat_xor, BitVec.toNat_shiftLeft, BitVec.toNat_and,
      Nat.add_mod_mod, Nat.shiftLeft_eq, pow_one]
    congr 1
    have := nat_xor_add_two_mul_and a.toNat b.toNat
    omega
  rw [bit x1 x2, add_assoc, add_comm ((x1 &&& x2) <<< 1) x3, ← add_assoc, bit (x1 ^^^ x2) x3, add_assoc]
  have hx : x1 ^^^ (x2 ^^^ x3) = x1 ^^^ x2 ^^^ x3 := (BitVec.xor_assoc _ _ _).symm
  rw [hx]
  congr 1
  -- disjoint carries
  have hd : ((x1 ^^^ x2) &&& x3) &&& (x1 &&& x2) = 0 := by
    apply BitVec.eq_of_getLsbD_eq
    intro i _
    simp only [BitVec.getLsbD_and, BitVec.getLsbD_xor]
    cases x1.getLsbD i <;> cases x2.getLsbD i <;> cases x3.getLsbD i <;> simp
  have hm : ((x1 ^^^ x3) &&& (x2 ^^^ x3)) ^^^ x3 = ((x1 ^^^ x2) &&& x3) ^^^ (x1 &&& x2) := by
    apply BitVec.eq_of_getLsbD_eq
    intro i _
    simp only [BitVec.getLsbD_and, BitVec.getLsbD_xor]
    cases x1.getLsbD i <;> cases x2.getLsbD i <;> cases x3.getLsbD i <;> rfl
  have hs : ∀ a b : BitVec K, a &&& b = 0 → (a ^^^ b) <<< 1 = a <<< 1 + b <<< 1 := by
    intro a b h
    have h1 : a + b = a ^^^ b := by rw [bit a b, h]; simp
    rw [← h1]
    apply BitVec.eq_of_toNat_eq
    simp only [BitVec.toNat_shiftLeft, BitVec.toNat_add, Nat.shiftLeft_eq, pow_one]
    rw [Nat.mod_mul_mod, ← Nat.add_mod, Nat.add_mul]
  rw [hm, hs _ _ hd]

end Verif
