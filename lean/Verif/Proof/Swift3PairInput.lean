import Verif.Proof.Swift3PairPost

/-! # Swift3 `input` with a corrupt party -/

namespace Verif

set_option linter.unusedSimpArgs false

namespace Swift3

variable {G : Prg} {H : Hash} {K L : Nat}

theorem ite_fail {c : Prop} [Decidable c] (q : Proto (S3St G K) (S3Share K)) (s : S3St G K) :
    (if c then Proto.throw .value else q) s = if c then .fail .value else q s := by split <;> rfl

theorem input_p2 (i : Party) {st : Party → S3St G K} (hP : PairPrf (st i).prf (st i.next).prf)
    (inp : Party → Option (BitVec K)) (id : Nat) :
    P2 i (input i (inp i) id (st i)) (input i.next (inp i.next) id (st i.next)) [] []
      fun _ _ a b => PostFrame (st i) (st i.next) a.2 b.2 ∧ (Agree a.2 b.2 → Agree (st i) (st i.next) ∧
        ∃ x, S3PairOf x a.1 b.1 ∧ (id = i.val → inp i = some x) ∧ (id = i.next.val → inp i.next = some x)) := by
  unfold input
  rw [ite_fail, ite_fail]
  refine P2.iteL ?_ ?_
  · intro _; exact P2.failL
  intro c1
  refine P2.iteR ?_ ?_
  · intro _; exact P2.failR
  intro c2
  rcases (by decide : ∀ i : Party, i = 0 ∨ i = 1 ∨ i = 2) i with rfl | rfl | rfl
  · simp only [Party.next_zero] at hP c1 c2 ⊢
    obtain ⟨h1, h2⟩ := hP
    match id with
    | 0 =>
      s3_norm [genP, gen1, gen2]
      run2
      rename_i x hx
      rw [fromBytes_toBytes] at hx
      injection hx with hx
      subst hx
      refine P2.done ⟨⟨⟨rfl, rfl⟩, ⟨rfl, rfl⟩, ⟨rfl, rfl⟩, fun _ => ⟨by simp only [h1], by simp only [h2]⟩, fun ⟨k1, k2⟩ =>
        ⟨by simp only [List.length_append, toBytes_length, k1], by simp only [List.length_append, toBytes_length, k2]⟩⟩, ?_⟩
      rintro ⟨e1, e2⟩
      refine ⟨⟨e1, e2⟩, ?_⟩
      cases hin : inp 0 with
      | none => exact absurd ⟨rfl, hin⟩ c1
      | some v =>
        refine ⟨v, ⟨?_, rfl, ?_⟩, fun h => rfl, fun h => absurd h (by decide)⟩
        · simp only [h1, h2, Option.getD_some]
          ring
        · simp only [h1, h2]
    | 1 =>
      s3_norm [genP, gen1, gen2]
      run2
      rename_i x hx
      rw [fromBytes_toBytes] at hx
      injection hx with hx
      subst hx
      refine P2.done ⟨⟨⟨rfl, rfl⟩, ⟨rfl, rfl⟩, ⟨rfl, rfl⟩, fun _ => ⟨by simp only [h1], by simp only [h2]⟩, fun ⟨k1, k2⟩ =>
        ⟨by simp only [List.length_append, toBytes_length, k1], by simp only [List.length_append, toBytes_length, k2]⟩⟩, ?_⟩
      rintro ⟨e1, e2⟩
      refine ⟨⟨e1, e2⟩, ?_⟩
      cases hin : inp 1 with
      | none => exact absurd ⟨rfl, hin⟩ c2
      | some v =>
        refine ⟨v, ⟨?_, rfl, ?_⟩, fun h => absurd h (by decide), fun h => rfl⟩
        · simp only [h1, h2, Option.getD_some]
          ring
        · simp only [h1, h2]
    | 2 =>
      s3_norm [genP, gen1, gen2]
      run2
      rename_i m m' x hx y hy
      refine P2.done ⟨⟨⟨rfl, rfl⟩, ⟨rfl, rfl⟩, ⟨rfl, rfl⟩, fun _ => ⟨by simp only [h1], by simp only [h2]⟩, fun ⟨k1, k2⟩ =>
        ⟨by simp only [List.length_append, toBytes_length, k1], by simp only [List.length_append, toBytes_length, k2]⟩⟩, ?_⟩
      rintro ⟨e1, e2⟩
      obtain ⟨g, f1⟩ := List.append_inj' e1 (by simp only [toBytes_length])
      have f1 := toBytes_inj' _ _ f1
      subst f1
      refine ⟨⟨g, e2⟩, _, ⟨(eq_add_of_sub_eq (eq_add_of_sub_eq (eq_add_of_sub_eq rfl))), rfl, ?_⟩, fun h => absurd h (by decide), fun h => absurd h (by decide)⟩
      simp only [h1, h2]
    | n + 3 => exact P2.failL
  · simp only [Party.next_one] at hP c1 c2 ⊢
    obtain ⟨h1, h2⟩ := hP
    match id with
    | 0 =>
      s3_norm [genP, gen1, gen2]
      run2
      rename_i m m' x hx y hy
      refine P2.done ⟨⟨⟨rfl, rfl⟩, ⟨rfl, rfl⟩, ⟨rfl, rfl⟩, fun _ => ⟨by simp only [h1], by simp only [h2]⟩, fun ⟨k1, k2⟩ =>
        ⟨by simp only [List.length_append, toBytes_length, k1], by simp only [List.length_append, toBytes_length, k2]⟩⟩, ?_⟩
      rintro ⟨e1, e2⟩
      obtain ⟨g, f1⟩ := List.append_inj' e2 (by simp only [toBytes_length])
      have f1 := toBytes_inj' _ _ f1
      subst f1
      refine ⟨⟨e1, g⟩, _, ⟨(eq_add_of_sub_eq (eq_add_of_sub_eq (eq_add_of_sub_eq rfl))), rfl, ?_⟩, fun h => absurd h (by decide), fun h => absurd h (by decide)⟩
      simp only [h1, h2]
    | 1 =>
      s3_norm [genP, gen1, gen2]
      run2
      rename_i x hx
      rw [fromBytes_toBytes] at hx
      injection hx with hx
      subst hx
      refine P2.done ⟨⟨⟨rfl, rfl⟩, ⟨rfl, rfl⟩, ⟨rfl, rfl⟩, fun _ => ⟨by simp only [h1], by simp only [h2]⟩, fun ⟨k1, k2⟩ =>
        ⟨by simp only [List.length_append, toBytes_length, k1], by simp only [List.length_append, toBytes_length, k2]⟩⟩, ?_⟩
      rintro ⟨e1, e2⟩
      refine ⟨⟨e1, e2⟩, ?_⟩
      cases hin : inp 1 with
      | none => exact absurd ⟨rfl, hin⟩ c1
      | some v =>
        refine ⟨v, ⟨?_, rfl, ?_⟩, fun h => rfl, fun h => absurd h (by decide)⟩
        · simp only [h1, h2, Option.getD_some]
          ring
        · simp only [h1, h2]
    | 2 =>
      s3_norm [genP, gen1, gen2]
      run2
      rename_i x hx
      rw [fromBytes_toBytes] at hx
      injection hx with hx
      subst hx
      refine P2.done ⟨⟨⟨rfl, rfl⟩, ⟨rfl, rfl⟩, ⟨rfl, rfl⟩, fun _ => ⟨by simp only [h1], by simp only [h2]⟩, fun ⟨k1, k2⟩ =>
        ⟨by simp only [List.length_append, toBytes_length, k1], by simp only [List.length_append, toBytes_length, k2]⟩⟩, ?_⟩
      rintro ⟨e1, e2⟩
      refine ⟨⟨e1, e2⟩, ?_⟩
      cases hin : inp 2 with
      | none => exact absurd ⟨rfl, hin⟩ c2
      | some v =>
        refine ⟨v, ⟨?_, rfl, ?_⟩, fun h => absurd h (by decide), fun h => rfl⟩
        · simp only [h1, h2, Option.getD_some]
          ring
        · simp only [h1, h2]
    | n + 3 => exact P2.failL
  · simp only [Party.next_two] at hP c1 c2 ⊢
    obtain ⟨h1, h2⟩ := hP
    match id with
    | 0 =>
      s3_norm [genP, gen1, gen2]
      run2
      rename_i x hx
      rw [fromBytes_toBytes] at hx
      injection hx with hx
      subst hx
      refine P2.done ⟨⟨⟨rfl, rfl⟩, ⟨rfl, rfl⟩, ⟨rfl, rfl⟩, fun _ => ⟨by simp only [h1], by simp only [h2]⟩, fun ⟨k1, k2⟩ =>
        ⟨by simp only [List.length_append, toBytes_length, k1], by simp only [List.length_append, toBytes_length, k2]⟩⟩, ?_⟩
      rintro ⟨e1, e2⟩
      refine ⟨⟨e1, e2⟩, ?_⟩
      cases hin : inp 0 with
      | none => exact absurd ⟨rfl, hin⟩ c2
      | some v =>
        refine ⟨v, ⟨?_, rfl, ?_⟩, fun h => absurd h (by decide), fun h => rfl⟩
        · simp only [h1, h2, Option.getD_some]
          ring
        · simp only [h1, h2]
    | 1 =>
      s3_norm [genP, gen1, gen2]
      run2
      rename_i m m' x hx y hy
      refine P2.done ⟨⟨⟨rfl, rfl⟩, ⟨rfl, rfl⟩, ⟨rfl, rfl⟩, fun _ => ⟨by simp only [h1], by simp only [h2]⟩, fun ⟨k1, k2⟩ =>
        ⟨by simp only [List.length_append, toBytes_length, k1], by simp only [List.length_append, toBytes_length, k2]⟩⟩, ?_⟩
      rintro ⟨e1, e2⟩
      obtain ⟨g, f1⟩ := List.append_inj' e2 (by simp only [toBytes_length])
      have f1 := toBytes_inj' _ _ f1
      subst f1
      refine ⟨⟨e1, g⟩, _, ⟨(eq_add_of_sub_eq (eq_add_of_sub_eq (eq_add_of_sub_eq rfl))), rfl, ?_⟩, fun h => absurd h (by decide), fun h => absurd h (by decide)⟩
      simp only [h1, h2]
    | 2 =>
      s3_norm [genP, gen1, gen2]
      run2
      rename_i x hx
      rw [fromBytes_toBytes] at hx
      injection hx with hx
      subst hx
      refine P2.done ⟨⟨⟨rfl, rfl⟩, ⟨rfl, rfl⟩, ⟨rfl, rfl⟩, fun _ => ⟨by simp only [h1], by simp only [h2]⟩, fun ⟨k1, k2⟩ =>
        ⟨by simp only [List.length_append, toBytes_length, k1], by simp only [List.length_append, toBytes_length, k2]⟩⟩, ?_⟩
      rintro ⟨e1, e2⟩
      refine ⟨⟨e1, e2⟩, ?_⟩
      cases hin : inp 2 with
      | none => exact absurd ⟨rfl, hin⟩ c1
      | some v =>
        refine ⟨v, ⟨?_, rfl, ?_⟩, fun h => rfl, fun h => absurd h (by decide)⟩
        · simp only [h1, h2, Option.getD_some]
          ring
        · simp only [h1, h2]
    | n + 3 => exact P2.failL

end Swift3

end Verif
