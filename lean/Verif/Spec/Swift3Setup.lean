import Verif.Spec.Swift3Verify
import Verif.Spec.Swift3Pair
import Verif.Spec.Adversary

/-!
# Specification: set-up of the Swift3 generators with a corrupt party

In `setup_prf` every party sends to each of the other two first a message of two commitments, then a message that opens
them: a seed for the generator of these two parties, 32 bytes of commitment randomness, a seed for the common generator,
and again 32 bytes.
-/

namespace Verif

namespace Swift3

/-- What a party contributes to `setup_prf`: the seeds `s0`, `s1` for the generators shared with the other party with the
lower and with the higher number, the seed `s2` for the common generator, and the randomness of the commitments. -/
structure SetupIn where
  s0 : Bytes
  s1 : Bytes
  s2 : Bytes
  r0 : Bytes
  r1 : Bytes
  r2 : Bytes

/-- All have 32 bytes. -/
def SetupIn.Sized (x : SetupIn) : Prop :=
  x.s0.length = 32 ∧ x.s1.length = 32 ∧ x.s2.length = 32 ∧ x.r0.length = 32 ∧ x.r1.length = 32 ∧ x.r2.length = 32

/-- The seed party `k` sends to party `j`: `s0` to the one of the other two with the lower number. -/
def SetupIn.to (x : SetupIn) (k j : Party) : Bytes :=
  if (k = 0 ∧ j = 1) ∨ (k = 1 ∧ j = 0) ∨ (k = 2 ∧ j = 0) then x.s0 else x.s1

/-- Exclusive or of two byte strings. -/
def xor2 (a b : Bytes) : Bytes := List.zipWith (· ^^^ ·) a b

/-- `op` opens the two commitments `cm`. -/
def SetupOpens (H : Hash) (cm op : Bytes) : Prop :=
  cm.length = 128 ∧ op.length = 128 ∧ cm = H.h (op.take 64) ++ H.h (op.drop 64)

/-- The seed for the common generator in the message `op`. -/
def commonSeed (op : Bytes) : Bytes := (op.drop 64).take 32

variable {G : Prg} {K : Nat}

/-- The corrupt party `i.prev` in `setup_prf`: it opens `o` towards `i` and `o'` towards `i.next`, after having committed to
them. From then on it uses `e` as its contribution to the common generator. -/
def twoSeeds (H : Hash) (i : Party) (o o' e : Bytes) : Proto (S3St G K) Unit := fun s =>
  .send i (H.h (o.take 64) ++ H.h (o.drop 64)) (.send i.next (H.h (o'.take 64) ++ H.h (o'.drop 64))
    (.recv i fun _ => .recv i.next fun _ =>
    .send i o (.send i.next o' (.recv i fun m => .recv i.next fun m' =>
      .ret ((), { s with prf := S3Prf.new (xor2 (m.take 32) (o.take 32)) (xor2 (m'.take 32) (o'.take 32))
                                          (xor3 (commonSeed m) (commonSeed m') e) })))))

end Swift3

end Verif
