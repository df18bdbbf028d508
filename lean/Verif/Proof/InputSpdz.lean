import Verif.Proof.SpdzLockCount
import Verif.Proof.SpdzLockMac
import Verif.Proof.InputAby3

/-!
# Lock-step runs of `input` and `input_all` of the SPDZ-wise backend
-/

namespace Verif

open Jmp Spdz

variable {f : Bytes → List Bool} {V K : Nat} {α : Type} {i : Party}

theorem inputMask_masked (h : BitVec V) : Masked V 1 (viaAby (Aby3.genZero V) >>= fun r => Pure.pure (r + h) :
    Proto (SpdzSt (idealPrg f) V) _) (fun x => x.headD 0) :=
  Masked.add [h] rfl fun s => by
    show (viaAby (Aby3.genZero V) s >>= fun r => Prog.ret (r.1 + h, r.2)) = _
    rw [genZero_eq]
    show Prog.ret (tapeVal V s.jmp.tapeA - tapeVal V s.jmp.tapeB + h, s.adv V) = Prog.ret (h + (tapeVal V s.jmp.tapeA - tapeVal V s.jmp.tapeB), s.adv (V * 1))
    rw [BitVec.add_comm, Nat.mul_one]

theorem abyInput_cpl {n : Nat} (id : Party) {x : Bool → Party → Option (BitVec V)} (h : ∀ w, x w id ≠ none)
    {I : (Bool → Party → SpdzSt (idealPrg f) V) → Prop} {k : Bool → Party → AShare V → Proto (SpdzSt (idealPrg f) V) α}
    {Q : (Bool → Party → α) → (Bool → Party → SpdzSt (idealPrg f) V) → Prop}
    (hk : ∀ x : Bool → Party → AShare V,
      CplS i n (fun t => ∃ st, I st ∧ t = fun w j => (st w j).adv (V * 1)) (fun w j => k w j (x w j)) Q) :
    CplS i (V * 1 + n) I (fun w j => viaAby (Aby3.input j (x w j) id.val) >>= k w j) Q := by
  have hi := id.isLt
  refine CplS.congr (q := fun w j => (viaAby (Aby3.genZero V) >>= fun r => Pure.pure (r + inputAdd id j (x w j))) >>= fun x =>
    Proto.net (sendAndReceiveValue j x) >>= fun y => k w j ⟨x, y⟩) (fun w j => ?_) ?_
  · unfold Aby3.input
    rw [if_neg (by omega)]
    by_cases hj : id = j
    · subst hj
      obtain ⟨y, hy⟩ := Option.ne_none_iff_exists'.1 (h w)
      unfold viaAby
      simp only [hy, inputAdd, if_true, Option.getD_some, viaPrf_bind, viaPrf_net, viaPrf_pure, viaJmp_bind, viaJmp_pure, viaJmp_net, bind_assoc, pure_bind]
    · have : id.val ≠ j.val := fun h => hj (Fin.ext h)
      unfold viaAby
      simp only [this, inputAdd, if_neg hj, if_false, add_zero, viaPrf_bind, viaPrf_net, viaPrf_pure, viaJmp_bind, viaJmp_pure, viaJmp_net, bind_assoc, pure_bind]
  · exact Masked.cpl (m := 1) (K := V) (out := fun x => x.headD 0) (res := fun x => x.headD 0) (fun w j => inputMask_masked _) Talk.value_head fun x hx =>
      hk fun w j => ⟨(x w j).headD 0, (x w j.prev).headD 0⟩

/-- The bits of every generator that `input` uses. -/
def spdzInputBits (V : Nat) : Nat := V * 1 + (V * 1 + 0)

theorem spdzInput_cpl (signed : Bool) (id : Party) {L : Nat} {x : Bool → Party → Option (BitVec K)} (h : ∀ w, x w id ≠ none) :
    CplS i (spdzInputBits V) (Buf L) (fun w j => (Spdz.input signed j (x w j) id.val : Proto (SpdzSt (idealPrg f) V) _))
      fun _ t => Buf (L + 1) t := by
  unfold Spdz.input
  refine abyInput_cpl id (x := fun w j => (x w j).map (toVerifShare signed V)) (fun w => ?_) fun value => ?_
  · simpa using h w
  refine CplS.get fun st hst => ⟨fun w j => do
    let mac ← viaAby (Aby3.mul j (value w j) (st w j).macKey)
    queueAll [⟨value w j, mac⟩]
    pure ⟨value w j, mac⟩, fun w j t P => rfl, ?_⟩
  obtain ⟨st', hb, rfl⟩ := hst
  refine abyMul_cpl fun mac => ?_
  refine CplS.bind' (Q := fun _ t => Buf (L + 1) t) ((queueAll_cpl (L := L) (n := 1) fun w j => rfl).pre ?_) fun _ => CplS.pure fun t ht => ht
  rintro _ ⟨t, rfl, rfl⟩
  exact hb.adv.adv

theorem spdzInputAll_cpl (signed : Bool) {L : Nat} {x : Bool → Party → BitVec K} :
    CplS i (spdzInputBits V + (spdzInputBits V + (spdzInputBits V + 0))) (Buf L)
      (fun w j => (Spdz.inputAll signed j (x w j) : Proto (SpdzSt (idealPrg f) V) _)) fun _ t => Buf (L + 1 + 1 + 1) t := by
  unfold Spdz.inputAll
  refine CplS.bind (spdzInput_cpl signed (0 : Party) (x := fun w j => if j = 0 then some (x w j) else none) fun w => by simp) fun a => ?_
  refine CplS.bind (spdzInput_cpl signed (1 : Party) (x := fun w j => if j = 1 then some (x w j) else none) fun w => by simp) fun b => ?_
  refine CplS.bind (spdzInput_cpl signed (2 : Party) (x := fun w j => if j = 2 then some (x w j) else none) fun w => by simp) fun c => ?_
  exact CplS.pure fun t ht => ht

end Verif
