import Verif.Spec.Swift3Pair
import Verif.Proof.Swift3Gates

/-! # Honest runs are clean -/

namespace Verif

namespace Swift3

variable {G : Prg} {K : Nat}

theorem _root_.Verif.Gates.ends_length {I : Type} {ok : I → I → I → Prop} {p vp vn : List I} (h : Gates ok p vp vn) :
    vp.length = p.length ∧ vn.length = p.length := by
  obtain ⟨gs, -, rfl, rfl, rfl⟩ := h
  simp

theorem _root_.Verif.Gates.ends {I : Type} {ok : I → I → I → Prop} {p vp vn : List I} (h : Gates ok p vp vn) {q : Nat} {x y : I}
    (hx : vp[q]? = some x) (hy : vn[q]? = some y) : ∃ g, ok g x y := by
  obtain ⟨gs, hg, rfl, rfl, rfl⟩ := h
  rw [List.getElem?_map] at hx hy
  cases e : gs[q]? with
  | none => rw [e] at hx; cases hx
  | some g =>
    rw [e] at hx hy
    simp only [Option.map_some, Option.some.injEq] at hx hy
    subst hx hy
    exact ⟨g.1, hg g (List.mem_of_getElem? e)⟩

/-- The states of honest parties, for every choice of the corrupt party. -/
theorem _root_.Verif.S3Ok.pair {u v : Nat} {w : DotCount} {st : Party → S3St G K} (h : S3Ok u v w st) (i : Party) :
    PairOk (st i) (st i.next) ∧ Clean (st i) (st i.next) := by
  have hn : ∀ i : Party, i.next.next = i.prev := by decide
  have hp : ∀ i : Party, i.prev.prev = i.next := by decide
  have hA : Agree (st i) (st i.next) := by
    refine ⟨h.queues.2 i, ?_⟩
    have := h.queues.1 i.next
    rwa [Party.prev_next] at this
  have e1 := fun j => (h.ands j).2
  have e2 := fun j => (h.muls j).2
  have e3 := fun j => (h.dots j).2
  have l1 := fun j => (h.ands j).1.ends_length
  have l2 := fun j => (h.muls j).1.ends_length
  have l3 := fun j => (h.dots j).1.ends_length
  have f1 : ∀ j, (st j).andProof.verifyPrev.length = u ∧ (st j).andProof.verifyNext.length = u := fun j => by
    have a := (l1 j.prev).1; have b := (l1 j.next).2
    rw [Party.next_prev] at a; rw [Party.prev_next] at b
    exact ⟨a.trans (e1 _), b.trans (e1 _)⟩
  have f2 : ∀ j, (st j).mulProof.verifyPrev.length = v ∧ (st j).mulProof.verifyNext.length = v := fun j => by
    have a := (l2 j.prev).1; have b := (l2 j.next).2
    rw [Party.next_prev] at a; rw [Party.prev_next] at b
    exact ⟨a.trans (e2 _), b.trans (e2 _)⟩
  have f3 : ∀ j, (st j).dotProof.verifyPrev.length = w.n ∧ (st j).dotProof.verifyNext.length = w.n := fun j => by
    have a := (l3 j.prev).1; have b := (l3 j.next).2
    rw [Party.next_prev] at a; rw [Party.prev_next] at b
    exact ⟨a.trans (e3 _), b.trans (e3 _)⟩
  refine ⟨⟨⟨h.prf.1 i, h.prf.2 _ _⟩, ⟨by rw [hA.1], by rw [hA.2]⟩, ⟨u, ⟨e1 i, f1 i⟩, e1 i.next, f1 i.next⟩,
    ⟨v, ⟨e2 i, f2 i⟩, e2 i.next, f2 i.next⟩, ⟨w.n, ⟨e3 i, f3 i⟩, ⟨e3 i.next, f3 i.next⟩, ?_, ?_, ?_⟩⟩, hA, ?_⟩
  · exact ((h.sizes i.next).2.1).trans ((h.sizes i).2.1).symm
  · exact ((h.sizes i.next).2.2).trans ((h.sizes i).2.2).symm
  · intro q x y hx hy
    have g3 := (h.dots i.prev).1
    rw [Party.next_prev, hp] at g3
    obtain ⟨gs, hgs, q1, q2, q3⟩ := g3
    rw [q2, List.getElem?_map] at hx
    rw [q3, List.getElem?_map] at hy
    obtain ⟨g, hg, rfl⟩ := Option.map_eq_some_iff.1 hx
    rw [hg] at hy
    obtain rfl := Option.some.inj hy
    obtain ⟨⟨n, s1, s2, s3⟩, -⟩ := hgs g (List.mem_of_getElem? hg)
    obtain ⟨n', t1, t2, t3⟩ := (h.sizes i.prev).1 q g.1 (by rw [q1, List.getElem?_map, hg]; rfl)
    obtain rfl : n = n' := s1.1.symm.trans t1.1
    rw [(h.sizes i.prev).2.1, (h.sizes i.prev).2.2] at *
    exact ⟨n, s2, s3, by rw [(h.sizes i).2.1]; exact t2, fun hm => by
      rw [(h.sizes i).2.2] at hm; rw [(h.sizes i).2.1]; exact t3 hm⟩
  · have g1 := (h.ands i.prev).1
    have g2 := (h.muls i.prev).1
    have g3 := (h.dots i.prev).1
    rw [Party.next_prev, hp] at g1 g2 g3
    rintro (⟨q, x, y, hx, hy, hw⟩ | ⟨q, x, y, hx, hy, hw⟩ | ⟨q, x, y, hx, hy, hw⟩)
    · obtain ⟨g, rfl, hg⟩ := g1.ends hx hy
      exact hw hg
    · obtain ⟨g, rfl, hg⟩ := g2.ends hx hy
      exact hw hg
    · obtain ⟨g, -, rfl, hg⟩ := g3.ends hx hy
      exact hw hg

end Swift3

end Verif
