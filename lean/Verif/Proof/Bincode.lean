import Verif.Model.Bincode
import Mathlib.Tactic.Ring

/-! # `bincode` round trips -/

namespace Verif

theorem leBytes_length (n v : Nat) : (leBytes n v).length = n := by
  induction n generalizing v with
  | zero => rfl
  | succ n ih => simp [leBytes, ih]

theorem ofLe_leBytes (n v : Nat) : ofLe (leBytes n v) = v % 256 ^ n := by
  induction n generalizing v with
  | zero => simp [leBytes, ofLe, Nat.mod_one]
  | succ n ih =>
    rw [leBytes, ofLe, ih, BitVec.toNat_ofNat, show 256 ^ (n + 1) = 256 * 256 ^ n from pow_succ' 256 n,
      Nat.mod_mul (a := 256) (b := 256 ^ n) (x := v)]

/-- Values that fit, and are restored by `dec`. -/
class LawfulBincode (α : Type) [Bincode α] where
  Fits : α → Prop
  dec_enc : ∀ x, Fits x → ∀ rest, Bincode.dec (Bincode.enc x ++ rest) = some (x, rest)

namespace LawfulBincode

open Bincode

instance (K : Nat) : LawfulBincode (BitVec K) where
  Fits _ := True
  dec_enc x _ rest := by
    have hl := leBytes_length (byteLen K) x.toNat
    have hpow : 2 ^ K ≤ 256 ^ byteLen K := by
      rw [show 256 = 2 ^ 8 from rfl, ← pow_mul]
      exact Nat.pow_le_pow_right (by norm_num) (by unfold byteLen; omega)
    simp only [dec, enc]
    rw [if_neg (by rw [List.length_append, hl]; omega), List.take_left' hl, List.drop_left' hl, ofLe_leBytes,
      Nat.mod_eq_of_lt (lt_of_lt_of_le x.isLt hpow), if_pos x.isLt, BitVec.ofNat_toNat, BitVec.setWidth_eq]

theorem bv_dec {K : Nat} (x : BitVec K) (rest : Bytes) : dec (enc x ++ rest) = some (x, rest) := dec_enc x trivial rest

instance : LawfulBincode GF2p64 where
  Fits _ := True
  dec_enc x _ rest := by
    show (do let (v, bs) ← dec (α := BitVec 64) (enc x.get ++ rest); pure (GF2p64.new v, bs)) = _
    rw [bv_dec]; rfl

theorem decMany_enc {α : Type} [Bincode α] [LawfulBincode α] (xs : List α) (h : ∀ x ∈ xs, Fits x) (rest : Bytes) :
    decMany xs.length (xs.flatMap enc ++ rest) = some (xs, rest) := by
  induction xs with
  | nil => rfl
  | cons x xs ih =>
    simp only [List.length_cons, decMany, List.flatMap_cons, List.append_assoc]
    rw [dec_enc x (h x (by simp))]
    simp only [bind, Option.bind]
    rw [ih fun y hy => h y (by simp [hy])]
    rfl

instance {α : Type} [Bincode α] [LawfulBincode α] : LawfulBincode (List α) where
  Fits xs := xs.length < 2 ^ 64 ∧ ∀ x ∈ xs, Fits x
  dec_enc xs h rest := by
    show (do let (n, bs) ← dec (α := BitVec 64) ((enc (BitVec.ofNat 64 xs.length) ++ xs.flatMap enc) ++ rest)
             decMany n.toNat bs) = _
    rw [List.append_assoc, bv_dec]
    simp only [bind, Option.bind]
    rw [BitVec.toNat_ofNat, Nat.mod_eq_of_lt h.1, decMany_enc xs h.2]

theorem dec_poly {T : Type} [Bincode T] (bs : Bytes) : dec (α := Poly T) bs =
    (dec (α := List T) bs).bind fun x => some (Poly.mk x.1, x.2) := rfl

theorem dec_pf {T : Type} [Bincode T] (bs : Bytes) : dec (α := ZkPf T) bs =
    (dec (α := List T) bs).bind fun x => (dec (α := List T) x.2).bind fun y => some (ZkPf.mk x.1 y.1, y.2) := rfl

theorem dec_shared {T : Type} [Bincode T] (bs : Bytes) : dec (α := ZkShared T) bs =
    (dec (α := List T) bs).bind fun x => (dec (α := T) x.2).bind fun y => (dec (α := T) y.2).bind fun z =>
      some (ZkShared.mk x.1 y.1 z.1, z.2) := rfl

instance {T : Type} [Bincode T] [LawfulBincode T] : LawfulBincode (Poly T) where
  Fits p := Fits p.coeffs
  dec_enc p h rest := by
    rw [dec_poly, show enc p = enc p.coeffs from rfl, dec_enc _ h]; rfl

instance {T : Type} [Bincode T] [LawfulBincode T] : LawfulBincode (ZkPf T) where
  Fits p := Fits p.w ∧ Fits p.a
  dec_enc p h rest := by
    rw [dec_pf, show enc p = enc p.w ++ enc p.a from rfl, List.append_assoc, dec_enc _ h.1, Option.bind_some,
      dec_enc _ h.2]; rfl

instance {T : Type} [Bincode T] [LawfulBincode T] : LawfulBincode (ZkShared T) where
  Fits v := Fits v.f ∧ Fits v.pr ∧ Fits v.b
  dec_enc v h rest := by
    rw [dec_shared, show enc v = enc v.f ++ enc v.pr ++ enc v.b from rfl, List.append_assoc, List.append_assoc,
      dec_enc _ h.1, Option.bind_some, dec_enc _ h.2.1, Option.bind_some, dec_enc _ h.2.2]; rfl

theorem deserialize_enc {α : Type} [Bincode α] [LawfulBincode α] (x : α) (h : Fits x) :
    deserialize α (enc x) = .ok x := by
  have := dec_enc x h []
  rw [List.append_nil] at this
  unfold deserialize
  rw [this]

end LawfulBincode

end Verif
