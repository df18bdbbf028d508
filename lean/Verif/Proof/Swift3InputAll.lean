import Verif.Model.Swift3InputAll
import Verif.Proof.Swift3Ops

/-!
# `input_all` of the Swift3 backend gives sharings of the three inputs
-/

namespace Verif.Swift3

variable {G : Prg} {K u v : Nat} {w : DotCount} {st : Party → S3St G K}

theorem inputAll_wp (x : Party → BitVec K) (hI : S3Ok u v w st) :
    WPS (fun i => inputAll i (x i)) st (fun s st' => Rels S3SharesOf [x 0, x 1, x 2] s ∧ S3Ok u v w st') := by
  unfold inputAll
  refine WPS.bind ((input_wp (id := 0) (x := x 0) (inp := fun i => if i = 0 then some (x i) else none) (by simp) hI).mono ?_)
  rintro s0 st1 ⟨h0, hI⟩
  refine WPS.bind ((input_wp (id := 1) (x := x 1) (inp := fun i => if i = 1 then some (x i) else none) (by simp) hI).mono ?_)
  rintro s1 st2 ⟨h1, hI⟩
  refine WPS.bind ((input_wp (id := 2) (x := x 2) (inp := fun i => if i = 2 then some (x i) else none) (by simp) hI).mono ?_)
  rintro s2 st3 ⟨h2, hI⟩
  exact WPS.pure (a := fun i => [s0 i, s1 i, s2 i]) ⟨Rels.cons h0 (Rels.cons h1 (Rels.cons h2 Rels.nil)), hI⟩

end Verif.Swift3
