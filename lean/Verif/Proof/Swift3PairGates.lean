import Verif.Proof.Swift3PairOpen
import Verif.Spec.Swift3Pair
import Verif.Spec.Dzkp
import Verif.Proof.PairMal

/-! # Swift3 gates with a corrupt party

Everything here is about the pair of honest parties `i` and `i.next`; the corrupt party is `i.prev`. -/

namespace Verif

/-- Two lists of the same length whose entries are related. -/
def Pairs {X B : Type} (R : X → B → B → Prop) (xs : List X) (l l' : List B) : Prop :=
  l.length = l'.length ∧ List.Forall₂ (fun x (p : B × B) => R x p.1 p.2) xs (l.zip l')

namespace Pairs

variable {X B C Y : Type} {R : X → B → B → Prop}

theorem nil : Pairs R [] [] [] := ⟨rfl, .nil⟩

theorem cons {x : X} {xs : List X} {a b : B} {l l' : List B} (h : R x a b) (hs : Pairs R xs l l') :
    Pairs R (x :: xs) (a :: l) (b :: l') := ⟨by simp [hs.1], .cons h hs.2⟩

theorem nil_left {l l' : List B} (h : Pairs R [] l l') : l = [] ∧ l' = [] := by
  obtain ⟨h1, h2⟩ := h
  cases l with
  | nil => exact ⟨rfl, List.eq_nil_of_length_eq_zero (by simpa using h1.symm)⟩
  | cons a l => cases l' with
    | nil => simp at h1
    | cons b l' => cases h2

theorem uncons {x : X} {xs : List X} {l l' : List B} (h : Pairs R (x :: xs) l l') :
    ∃ a b t t', l = a :: t ∧ l' = b :: t' ∧ R x a b ∧ Pairs R xs t t' := by
  obtain ⟨h1, h2⟩ := h
  cases l with
  | nil => cases h2
  | cons a l => cases l' with
    | nil => simp at h1
    | cons b l' =>
      cases h2 with
      | cons h hs => exact ⟨a, b, l, l', rfl, rfl, h, by simpa using h1, hs⟩

theorem length {xs : List X} {l l' : List B} (h : Pairs R xs l l') : l.length = xs.length ∧ l'.length = xs.length := by
  have := h.2.length_eq
  simp only [List.length_zip, h.1, min_self] at this
  exact ⟨h.1.trans this.symm, this.symm⟩

end Pairs

namespace Swift3

variable {G : Prg} {H : Hash} {K L : Nat}

/-! ## Random values -/

/-- `n` times a value of each pairwise generator. -/
def draws (L : Nat) : Nat → S3Prf G → List (BitVec L × BitVec L) × S3Prf G
  | 0, p => ([], p)
  | n + 1, p =>
      let o := draws L n { p with p1 := (G.gen L p.p1).2, p2 := (G.gen L p.p2).2 }
      (((G.gen L p.p1).1, (G.gen L p.p2).1) :: o.1, o.2)

theorem draws_length (n : Nat) (p : S3Prf G) : (draws L n p).1.length = n := by
  induction n generalizing p with
  | zero => rfl
  | succ n ih => simp [draws, ih]

theorem draws_pair (n : Nat) {p p' : S3Prf G} (h : PairPrf p p') :
    (draws L n p).1.map (·.1) = (draws L n p').1.map (·.2) ∧ PairPrf (draws L n p).2 (draws L n p').2 := by
  induction n generalizing p p' with
  | zero => exact ⟨rfl, h⟩
  | succ n ih =>
    obtain ⟨h1, h2⟩ := ih (p := { p with p1 := (G.gen L p.p1).2, p2 := (G.gen L p.p2).2 })
      (p' := { p' with p1 := (G.gen L p'.p1).2, p2 := (G.gen L p'.p2).2 }) ⟨by simp [h.1], h.2⟩
    rw [h.1] at h1
    exact ⟨by simp [draws, h1, h.1], h2⟩

theorem genForZeroShare_eq (s : S3St G K) : genForZeroShare L s =
    .ret (⟨(G.gen L s.prf.p1).1, (G.gen L s.prf.p2).1⟩,
      { s with prf := { s.prf with p1 := (G.gen L s.prf.p1).2, p2 := (G.gen L s.prf.p2).2 } }) := rfl

theorem abyAndLoop_eq (l : List (AShare L × AShare L)) (s : S3St G K) : abyAndLoop l s =
    .ret (List.zipWith (fun (q : AShare L × AShare L) (d : BitVec L × BitVec L) =>
      ((q.1.andLocal q.2).a ^^^ (d.1 ^^^ d.2), (⟨d.1, d.2⟩ : AShare L))) l (draws L l.length s.prf).1,
      { s with prf := (draws L l.length s.prf).2 }) := by
  induction l generalizing s with
  | nil => rfl
  | cons q l ih =>
    simp only [abyAndLoop, Proto.bind_apply, genForZeroShare_eq, Prog.ret_bind, ih]
    rfl

theorem abyDotLoop_eq (l : List (List (AShare K) × List (AShare K))) (s : S3St G K) : abyDotLoop l s =
    .ret (List.zipWith (fun (q : List (AShare K) × List (AShare K)) (d : BitVec K × BitVec K) =>
      (Aby3.dotAcc (d.1 - d.2) (q.1.zip q.2), (⟨d.1, d.2⟩ : AShare K))) l (draws K l.length s.prf).1,
      { s with prf := (draws K l.length s.prf).2 }) := by
  induction l generalizing s with
  | nil => rfl
  | cons q l ih =>
    simp only [abyDotLoop, Proto.bind_apply, genForZeroShare_eq, Prog.ret_bind, ih]
    rfl

/-- The values of `and_post` with the random values `d`. -/
def andPostVal (a b : S3Share L) (de : AShare L) (d : BitVec L × BitVec L) : Post L :=
  ⟨(a.a &&& b.c) ^^^ (b.a &&& a.c) ^^^ de.a ^^^ d.1, (a.b &&& b.c) ^^^ (b.b &&& a.c) ^^^ de.b ^^^ d.2, a.c &&& b.c, d.1, d.2⟩

/-- The values of `mul_post` with the random values `d`. -/
def mulPostVal (a b : S3Share K) (de : AShare K) (d : BitVec K × BitVec K) : Post K :=
  ⟨-a.a * b.c - b.a * a.c + de.a - d.1, -a.b * b.c - b.b * a.c + de.b - d.2, a.c * b.c, d.1, d.2⟩

/-- The values of `dot_post` with the random values `d`. -/
def dotPostVal (a b : List (S3Share K)) (de : AShare K) (d : BitVec K × BitVec K) : Post K :=
  let y := dotPostAcc (de.a - d.1, de.b - d.2, 0) (a.zip b)
  ⟨y.1, y.2.1, y.2.2, d.1, d.2⟩

theorem andPostLocal_eq (a b : S3Share L) (de : AShare L) (s : S3St G K) : andPostLocal a b de s =
    .ret (andPostVal a b de ((G.gen L s.prf.p1).1, (G.gen L s.prf.p2).1),
      { s with prf := { s.prf with p1 := (G.gen L s.prf.p1).2, p2 := (G.gen L s.prf.p2).2 } }) := rfl

theorem mulPostLocal_eq (a b : S3Share K) (de : AShare K) (s : S3St G K) : mulPostLocal a b de s =
    .ret (mulPostVal a b de ((G.gen K s.prf.p1).1, (G.gen K s.prf.p2).1),
      { s with prf := { s.prf with p1 := (G.gen K s.prf.p1).2, p2 := (G.gen K s.prf.p2).2 } }) := rfl

theorem dotPostLocal_eq (a b : List (S3Share K)) (de : AShare K) (s : S3St G K) : dotPostLocal a b de s =
    .ret (dotPostVal a b de ((G.gen K s.prf.p1).1, (G.gen K s.prf.p2).1),
      { s with prf := { s.prf with p1 := (G.gen K s.prf.p1).2, p2 := (G.gen K s.prf.p2).2 } }) := rfl

theorem andPostLoop_eq (l : List (AShare L × (S3Share L × S3Share L))) (s : S3St G K) : andPostLoop l s =
    .ret (List.zipWith (fun (q : AShare L × (S3Share L × S3Share L)) d => andPostVal q.2.1 q.2.2 q.1 d) l
      (draws L l.length s.prf).1, { s with prf := (draws L l.length s.prf).2 }) := by
  induction l generalizing s with
  | nil => rfl
  | cons q l ih =>
    obtain ⟨de, a, b⟩ := q
    simp only [andPostLoop, Proto.bind_apply, andPostLocal_eq, Prog.ret_bind, ih]
    rfl

theorem dotPostLoop_eq (l : List (AShare K × (List (S3Share K) × List (S3Share K)))) (s : S3St G K) : dotPostLoop l s =
    .ret (List.zipWith (fun (q : AShare K × (List (S3Share K) × List (S3Share K))) d => dotPostVal q.2.1 q.2.2 q.1 d) l
      (draws K l.length s.prf).1, { s with prf := (draws K l.length s.prf).2 }) := by
  induction l generalizing s with
  | nil => rfl
  | cons q l ih =>
    obtain ⟨de, a, b⟩ := q
    simp only [dotPostLoop, Proto.bind_apply, dotPostLocal_eq, Prog.ret_bind, ih]
    rfl

/-- The masks of `n` joint sharings: values of a pairwise generator and of the common one. -/
def jdraws (L : Nat) : Nat → G.S → G.S → List (BitVec L × BitVec L) × G.S × G.S
  | 0, q, p => ([], q, p)
  | n + 1, q, p =>
      let o := jdraws L n (G.gen L q).2 (G.gen L p).2
      (((G.gen L q).1, (G.gen L p).1) :: o.1, o.2)

theorem jdraws_length (n : Nat) (q p : G.S) : (jdraws L n q p).1.length = n := by
  induction n generalizing q p with
  | zero => rfl
  | succ n ih => simp [jdraws, ih]

theorem jshareLoop1_eq (mix : BitVec L → BitVec L → BitVec L → BitVec L) (l : List (BitVec L)) (s : S3St G K) :
    jshareLoop1 mix l s = .ret (List.zipWith (fun (e : BitVec L × BitVec L) x => (e.1, e.2, mix e.1 e.2 x))
      (jdraws L l.length s.prf.p1 s.prf.pp).1 l, { s with prf := { s.prf with
        p1 := (jdraws L l.length s.prf.p1 s.prf.pp).2.1, pp := (jdraws L l.length s.prf.p1 s.prf.pp).2.2 } }) := by
  induction l generalizing s with
  | nil => rfl
  | cons x l ih =>
    simp only [jshareLoop1, Proto.bind_apply, genP, gen1, Proto.step_apply, Prog.ret_bind, ih]
    rfl

theorem jshareLoop2_eq (mix : BitVec L → BitVec L → BitVec L → BitVec L) (l : List (BitVec L)) (s : S3St G K) :
    jshareLoop2 mix l s = .ret (List.zipWith (fun (e : BitVec L × BitVec L) x => (e.1, e.2, mix e.1 e.2 x))
      (jdraws L l.length s.prf.p2 s.prf.pp).1 l, { s with prf := { s.prf with
        p2 := (jdraws L l.length s.prf.p2 s.prf.pp).2.1, pp := (jdraws L l.length s.prf.p2 s.prf.pp).2.2 } }) := by
  induction l generalizing s with
  | nil => rfl
  | cons x l ih =>
    simp only [jshareLoop2, Proto.bind_apply, genP, gen2, Proto.step_apply, Prog.ret_bind, ih]
    rfl

theorem jshareLoopR_eq (l : List (BitVec L)) (q : G.S) (s : S3St G K) :
    jshareLoopR l s = .ret (List.zipWith (fun (e : BitVec L × BitVec L) b => (⟨e.2, e.2, b⟩ : S3Share L))
      (jdraws L l.length q s.prf.pp).1 l, { s with prf := { s.prf with pp := (jdraws L l.length q s.prf.pp).2.2 } }) := by
  induction l generalizing q s with
  | nil => rfl
  | cons x l ih =>
    simp only [jshareLoopR, Proto.bind_apply, genP, Proto.step_apply, Prog.ret_bind, ih (G.gen L q).2]
    rfl

end Swift3

end Verif
