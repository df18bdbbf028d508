import Verif.Spec.Swift3PairVerify
import Verif.Spec.Adversary

/-!
# A corrupt party in the coin tossing of Swift3
-/

namespace Verif

namespace Swift3

/-- The corrupt party `i.prev` commits to `o` towards `i` and to `o'` towards `i.next`, and opens both; it ignores what it
receives. -/
def twoCoins {α : Type} (H : Hash) (i : Party) (o o' : Bytes) (x : α) : Prog α :=
  .send i (H.h o) (.send i.next (H.h o') (.recv i fun _ => .recv i.next fun _ =>
    .send i o (.send i.next o' (.recv i fun _ => .recv i.next fun _ => .ret x))))

end Swift3

end Verif
