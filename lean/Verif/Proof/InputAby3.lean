import Verif.Proof.UniCount
import Verif.Proof.UniAby3

/-!
# The messages of `input` and `input_all` of the ABY3 backend are uniform
-/

namespace Verif

variable {K : Nat} {i : Party}

/-- What a party adds to its zero share. -/
def inputAdd (id j : Party) (inp : Option (BitVec K)) : BitVec K := if id = j then inp.getD 0 else 0

theorem aby3Input_uni (id : Party) {inp : Party → Option (BitVec K)} (h : inp id ≠ none) :
    Uni i [(K, 1)] (fun j => Aby3.input j (inp j) id.val) (fun _ => True) := by
  have hi := id.isLt
  have e : ∀ j, (Aby3.input j (inp j) id.val : Proto (Aby3St bitPrg) (AShare K)) = (do
      let x ← (do let r ← Aby3.genZero K; pure (r + inputAdd id j (inp j)))
      let y ← Proto.net (sendAndReceiveValue j x)
      pure ⟨x, y⟩) := by
    intro j
    unfold Aby3.input
    rw [if_neg (by omega)]
    by_cases hj : id = j
    · subst hj
      obtain ⟨x, hx⟩ := Option.ne_none_iff_exists'.1 h
      simp only [hx, inputAdd, if_true, bind_assoc, pure_bind, Option.getD_some]
    · have : id.val ≠ j.val := fun h => hj (Fin.ext h)
      simp only [this, inputAdd, if_neg hj, if_false, bind_assoc, pure_bind, add_zero]
  refine Uni.congr e (Uni.exchangeValue (f := fun _ x y => AShare.mk x y) ?_ fun _ _ => trivial)
  refine Masks.congr (fun j => ?_) (Masks.consZero (f := fun j r => r + inputAdd id j (inp j)) (q := fun _ => pure []) (fun j r => by
    show r + _ = r + (0 + _)
    rw [zero_add]) Masks.nil)
  simp only [bind_assoc, pure_bind]

theorem aby3InputAll_uni {inp : Party → BitVec K} : Uni i [(K, 3)] (fun j => Aby3.inputAll j (inp j)) (fun _ => True) := by
  have e : ∀ j, (Aby3.inputAll j (inp j) : Proto (Aby3St bitPrg) (List (AShare K))) = (do
      let x ← (do
        let r ← Aby3.genZero K
        let cs ← (do
          let r ← Aby3.genZero K
          let cs ← (do
            let r ← Aby3.genZero K
            let cs ← pure []
            pure ((r + inputAdd 2 j (some (inp j))) :: cs))
          pure ((r + inputAdd 1 j (some (inp j))) :: cs))
        pure ((r + inputAdd 0 j (some (inp j))) :: cs))
      let y ← Proto.net (sendSliceAndReceiveIter j x)
      pure (List.zipWith AShare.mk x y)) := by
    intro j
    unfold Aby3.inputAll
    simp only [bind_assoc, pure_bind]
    match j with
    | 0 => simp [inputAdd]
    | 1 => simp [inputAdd]
    | 2 => simp [inputAdd]
  have hz : ∀ (id j : Party) (r : BitVec K), r + inputAdd id j (some (inp j)) = r + (0 + inputAdd id j (some (inp j))) := fun id j r => by
    rw [zero_add]
  exact Uni.congr e (Uni.exchange (f := fun _ x y => List.zipWith AShare.mk x y) (Masks.consZero (f := fun j r => r + inputAdd 0 j (some (inp j))) (hz 0)
    (Masks.consZero (f := fun j r => r + inputAdd 1 j (some (inp j))) (hz 1)
      (Masks.consZero (f := fun j r => r + inputAdd 2 j (some (inp j))) (hz 2) Masks.nil))) fun _ _ _ _ => trivial)

end Verif
