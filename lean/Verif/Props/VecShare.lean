import Verif.Model.VecShare
import Verif.Proof.MsbAdder

/-! # C73: a `VecShare` (two parallel vectors) behaves as one vector of shares -/

namespace Verif

variable {V : Nat}

/-- Specification: the vector of shares that a pair of parallel vectors stands for. -/
def VecShare.Is (v : VecShare V) (xs : List (SShare V)) : Prop :=
  v.values = xs.map (·.value) ∧ v.macs = xs.map (·.mac)

/-- Specification: both computations fail with the same error, or succeed with related results. -/
def SameOutcome {α β : Type} (R : α → β → Prop) : Except Err α → Except Err β → Prop
  | .ok a, .ok b => R a b
  | .error e, .error e' => e = e'
  | _, _ => False

theorem VecShare.Is.unique {v : VecShare V} {xs ys : List (SShare V)} (h : v.Is xs) (h' : v.Is ys) : xs = ys := by
  have hl : xs.length = ys.length := by simpa using congrArg List.length (h.1.symm.trans h'.1)
  refine List.ext_getElem hl fun i h1 h2 => ?_
  have e1 := h.1.symm.trans h'.1
  have e2 := h.2.symm.trans h'.2
  have a1 : (xs.map (·.value))[i]? = (ys.map (·.value))[i]? := by rw [e1]
  have a2 : (xs.map (·.mac))[i]? = (ys.map (·.mac))[i]? := by rw [e2]
  simp [h1, h2] at a1 a2
  exact SShare.ext a1 a2

theorem VecShare.new_map (xs : List (SShare V)) :
    VecShare.new (xs.map (·.value)) (xs.map (·.mac)) = .ok ⟨xs.map (·.value), xs.map (·.mac)⟩ := by
  simp [VecShare.new]

/-- Two parallel vectors of equal length stand for exactly one vector of shares; of different lengths, for none, and the
constructor rejects them. -/
theorem C73_meaning (values macs : List (AShare V)) :
    (values.length = macs.length → ∃! xs, VecShare.Is ⟨values, macs⟩ xs) ∧
    (values.length = macs.length → VecShare.new values macs = .ok ⟨values, macs⟩) ∧
    (values.length ≠ macs.length → VecShare.new values macs = .error .panic ∧ ∀ xs, ¬ VecShare.Is ⟨values, macs⟩ xs) := by
  refine ⟨fun h => ?_, fun h => by simp [VecShare.new, h], fun h => ⟨by simp [VecShare.new, h], fun xs hx => h ?_⟩⟩
  · have hi : VecShare.Is ⟨values, macs⟩ (List.zipWith SShare.mk values macs) := by
      have k : ∀ (vs ms : List (AShare V)), vs.length = ms.length →
          vs = (List.zipWith SShare.mk vs ms).map (·.value) ∧ ms = (List.zipWith SShare.mk vs ms).map (·.mac) := by
        intro vs
        induction vs with
        | nil => intro ms h; cases ms with
          | nil => exact ⟨rfl, rfl⟩
          | cons m ms => simp at h
        | cons x vs ih => intro ms h; cases ms with
          | nil => simp at h
          | cons m ms =>
            obtain ⟨h1, h2⟩ := ih ms (by simpa using h)
            exact ⟨congrArg (x :: ·) h1, congrArg (m :: ·) h2⟩
      exact k values macs h
    exact ⟨_, hi, fun ys hy => hy.unique hi⟩
  · have h1 := congrArg List.length hx.1
    have h2 := congrArg List.length hx.2
    simp at h1 h2
    omega

/-- Building, appending, length. -/
theorem C73_build (v w : VecShare V) (xs ys : List (SShare V)) (hv : v.Is xs) (hw : w.Is ys) (s : SShare V) :
    (∃ u, VecShare.fromVec xs = .ok u ∧ u.Is xs) ∧ (VecShare.empty V).Is [] ∧ v.len = xs.length ∧
    (v.push s).Is (xs ++ [s]) ∧ (v.extend w).Is (xs ++ ys) := by
  refine ⟨⟨⟨xs.map (·.value), xs.map (·.mac)⟩, ?_, rfl, rfl⟩, ⟨rfl, rfl⟩, ?_, ⟨?_, ?_⟩, ⟨?_, ?_⟩⟩
  · rw [VecShare.fromVec, List.unzip_eq_map]
    simpa [Function.comp_def] using VecShare.new_map xs
  · simp [VecShare.len, hv.1]
  · simp [VecShare.push, hv.1]
  · simp [VecShare.push, hv.2]
  · simp [VecShare.extend, hv.1, hw.1]
  · simp [VecShare.extend, hv.2, hw.2]

/-- Indexing and updating: as in a vector of shares, with a panic exactly past its end. -/
theorem C73_index (v : VecShare V) (xs : List (SShare V)) (hv : v.Is xs) (i : Nat) (s : SShare V) :
    v.getAt i = (match xs[i]? with | some x => .ok x | none => .error .panic) ∧
    SameOutcome VecShare.Is (v.setAt i s) (if i < xs.length then .ok (xs.set i s) else .error .panic) := by
  constructor
  · simp only [VecShare.getAt, idx, hv.1, hv.2, List.getElem?_map]
    cases xs[i]? <;> rfl
  · by_cases h : i < xs.length
    · simp only [VecShare.setAt, VecShare.setE, hv.1, hv.2, List.length_map, h, if_true, bind, Except.bind, pure, Except.pure,
        SameOutcome, VecShare.Is]
      exact ⟨(List.map_set ..).symm, (List.map_set ..).symm⟩
    · simp [VecShare.setAt, VecShare.setE, hv.1, h, bind, Except.bind, SameOutcome]

/-- Splitting: as for a vector of shares, with a panic exactly past its end. -/
theorem C73_split (v : VecShare V) (xs : List (SShare V)) (hv : v.Is xs) (mid : Nat) :
    SameOutcome (fun p q => p.1.Is q.1 ∧ p.2.Is q.2) (v.splitAt mid)
      (if xs.length < mid then .error .panic else .ok (xs.take mid, xs.drop mid)) := by
  by_cases h : xs.length < mid
  · simp [VecShare.splitAt, VecShare.splitAtE, hv.1, h, bind, Except.bind, SameOutcome]
  · simp only [VecShare.splitAt, VecShare.splitAtE, hv.1, hv.2, List.length_map, h, if_false, bind, Except.bind,
      ← List.map_take, ← List.map_drop, VecShare.new_map, pure, Except.pure, SameOutcome]
    exact ⟨⟨rfl, rfl⟩, rfl, rfl⟩

/-- Chunks: those of the vector of shares; a panic exactly for chunks of size zero. -/
theorem C73_chunks (v : VecShare V) (xs : List (SShare V)) (hv : v.Is xs) (n : Nat) :
    SameOutcome (List.Forall₂ VecShare.Is) (v.chunks n) (if n = 0 then .error .panic else .ok (chunksOf n xs)) := by
  by_cases h : n = 0
  · simp [VecShare.chunks, chunksE, h, bind, Except.bind, SameOutcome]
  · have key : ∀ ls : List (List (SShare V)),
        ∃ us, VecShare.chunkLoop ((ls.map (List.map (·.value))).zip (ls.map (List.map (·.mac)))) = .ok us ∧
          List.Forall₂ VecShare.Is us ls := by
      intro ls
      induction ls with
      | nil => exact ⟨[], rfl, .nil⟩
      | cons l ls ih =>
        obtain ⟨us, h1, h2⟩ := ih
        refine ⟨⟨l.map (·.value), l.map (·.mac)⟩ :: us, ?_, .cons ⟨rfl, rfl⟩ h2⟩
        simp only [List.map_cons, List.zip_cons_cons, VecShare.chunkLoop, VecShare.new_map, h1, bind, Except.bind, pure,
          Except.pure]
    obtain ⟨us, h1, h2⟩ := key (chunksOf n xs)
    rw [← chunksOf_map, ← chunksOf_map] at h1
    rw [if_neg h]
    have : v.chunks n = .ok us := by
      simp only [VecShare.chunks, chunksE, h, if_false, hv.1, hv.2, bind, Except.bind, h1]
    rw [this]
    exact h2

/-- The masked sums, computed in one pass over the four vectors, are those of the two vectors of shares. -/
theorem C73_filter_reduce (v w : VecShare V) (xs ys : List (SShare V)) (hv : v.Is xs) (hw : w.Is ys) (mask : IrisCodeArray) :
    VecShare.filterReduceAddTwice v w mask = SShare.filterReduceAddTwice xs ys mask := by
  unfold VecShare.filterReduceAddTwice SShare.filterReduceAddTwice
  have lv : v.len = xs.length := by simp [VecShare.len, hv.1]
  have lw : w.len = ys.length := by simp [VecShare.len, hw.1]
  have hc : (v.len = 0 ∨ v.len ≠ w.len) ↔ (xs.isEmpty ∨ xs.length ≠ ys.length) := by
    rw [lv, lw, List.isEmpty_iff, List.length_eq_zero_iff]
  by_cases h : v.len = 0 ∨ v.len ≠ w.len
  · rw [if_pos h, if_pos (by simpa using hc.1 h)]
  · rw [if_neg h, if_neg (fun h' => h (hc.2 (by simpa using h')))]
    push Not at h
    have hl : xs.length = ys.length := by omega
    rw [hv.1, hv.2, hw.1, hw.2]
    have key : ∀ (bs : List Bool) (xs ys : List (SShare V)) (a b : SShare V), xs.length = ys.length →
        (((((xs.map (·.value)).zip (xs.map (·.mac))).zip ((ys.map (·.value)).zip (ys.map (·.mac)))).zip bs).filter (·.2)).foldl
          (fun acc p => (acc.1.add p.1.1.1, acc.2.1.add p.1.1.2, acc.2.2.1.add p.1.2.1, acc.2.2.2.add p.1.2.2))
          (a.value, a.mac, b.value, b.mac) =
        (((xs.zip bs).foldl (fun acc p => if p.2 then acc.add p.1 else acc) a).value,
         ((xs.zip bs).foldl (fun acc p => if p.2 then acc.add p.1 else acc) a).mac,
         ((ys.zip bs).foldl (fun acc p => if p.2 then acc.add p.1 else acc) b).value,
         ((ys.zip bs).foldl (fun acc p => if p.2 then acc.add p.1 else acc) b).mac) := by
      intro bs
      induction bs with
      | nil => intro xs ys a b _; simp
      | cons c bs ih =>
        intro xs ys a b hl
        cases xs with
        | nil => cases ys with
          | nil => simp
          | cons y ys => simp at hl
        | cons x xs =>
          cases ys with
          | nil => simp at hl
          | cons y ys =>
            simp only [List.map_cons, List.zip_cons_cons, List.foldl_cons]
            cases c with
            | false =>
              rw [List.filter_cons_of_neg (by simp)]
              simpa using ih xs ys a b (by simpa using hl)
            | true =>
              rw [List.filter_cons_of_pos (by simp), List.foldl_cons]
              exact ih xs ys (a.add x) (b.add y) (by simpa using hl)
    have k := key mask.bits xs ys (SShare.zero V) (SShare.zero V) hl
    unfold VecShare.filterFold SShare.filterSum
    rw [show (AShare.zero V, AShare.zero V, AShare.zero V, AShare.zero V) =
      ((SShare.zero V).value, (SShare.zero V).mac, (SShare.zero V).value, (SShare.zero V).mac) from rfl, k]

example : (⟨[⟨1, 2⟩, ⟨3, 4⟩], [⟨5, 6⟩, ⟨7, 8⟩]⟩ : VecShare 16).Is [⟨⟨1, 2⟩, ⟨5, 6⟩⟩, ⟨⟨3, 4⟩, ⟨7, 8⟩⟩] := ⟨rfl, rfl⟩

end Verif
