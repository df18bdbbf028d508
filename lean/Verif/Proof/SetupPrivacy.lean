import Verif.Spec.SetupPrivacy
import Verif.Proof.OpenLock
import Verif.Proof.Swift3Setup
import Verif.Proof.MalAby3Iris
import Verif.Proof.Swift3Iris
import Verif.Proof.PairSetup
import Mathlib.Data.Fintype.Vector
import Mathlib.Data.Fintype.BigOperators
import Mathlib.SetTheory.Cardinal.Finite
import Mathlib.Data.BitVec
import Mathlib.Data.Set.Card

/-! # The view of the set-up is independent of the generator of the other two parties -/

namespace Verif

open Swift3 (xor2)

theorem xor2_length {a b : Bytes} (ha : a.length = 32) (hb : b.length = 32) : (xor2 a b).length = 32 := by
  simp [xor2, ha, hb]

theorem xor2_self_right : ∀ {a b : Bytes}, a.length = b.length → xor2 (xor2 a b) b = a
  | [], _, _ => by simp [xor2]
  | _ :: _, [], h => by simp at h
  | x :: a, y :: b, h => by
    have : xor2 (x :: a) (y :: b) = (x ^^^ y) :: xor2 a b := rfl
    rw [this]
    show (x ^^^ y ^^^ y) :: xor2 (xor2 a b) b = _
    rw [xor2_self_right (by simpa using h), BitVec.xor_assoc, BitVec.xor_self, BitVec.xor_zero]

theorem xor2_assoc' : ∀ (a b c : Bytes), xor2 (xor2 a b) c = xor2 a (xor2 b c)
  | [], _, _ => by simp [xor2]
  | _ :: _, [], _ => by simp [xor2]
  | _ :: _, _ :: _, [] => by simp [xor2]
  | x :: a, y :: b, z :: c => by
    show (x ^^^ y ^^^ z) :: xor2 (xor2 a b) c = (x ^^^ (y ^^^ z)) :: xor2 a (xor2 b c)
    rw [xor2_assoc', BitVec.xor_assoc]

theorem xor2_right_comm (a b c : Bytes) : xor2 (xor2 a b) c = xor2 (xor2 a c) b := by
  rw [xor2_assoc', xor2_assoc', Swift3.xor2_comm b c]

/-- The counting argument: shifting the draw changes the key by any given difference and leaves the view alone. -/
theorem count_indep {X : Type} (S : Set X) (key : X → Bytes) (T : Bytes → X → X) (P : Bytes → Prop)
    (hk : ∀ x ∈ S, (key x).length = 32)
    (hT : ∀ d : Bytes, d.length = 32 → ∀ x ∈ S, T d x ∈ S ∧ key (T d x) = xor2 (key x) d ∧ T d (T d x) = x) :
    {x | x ∈ S ∧ P (key x)}.ncard * {k : Bytes | k.length = 32}.ncard = S.ncard * {k : Bytes | k.length = 32 ∧ P k}.ncard := by
  rw [← Set.ncard_prod, ← Set.ncard_prod]
  refine Set.ncard_congr (fun y _ => (T y.2 y.1, key y.1)) ?_ ?_ ?_
  · rintro ⟨x, d⟩ ⟨⟨hx, hp⟩, hd⟩
    exact ⟨(hT d hd x hx).1, hk x hx, hp⟩
  · rintro ⟨x, d⟩ ⟨y, e⟩ ⟨⟨hx, hp⟩, hd⟩ ⟨⟨hy, hq⟩, he⟩ h
    simp only [Prod.mk.injEq] at h
    replace hd : d.length = 32 := hd
    replace he : e.length = 32 := he
    have h1 := (hT d hd x hx).2
    have h2 := (hT e he y hy).2
    have hde : xor2 (key x) d = xor2 (key x) e := by rw [← h1.1, h.1, h2.1, h.2]
    have hde' : d = e := by
      have := congrArg (fun a => xor2 a (key x)) hde
      rwa [Swift3.xor2_comm (key x) d, Swift3.xor2_comm (key x) e, xor2_self_right (by rw [hd, hk x hx]),
        xor2_self_right (by rw [he, hk x hx])] at this
    subst hde'
    rw [← h1.2, h.1, h2.2]
  · rintro ⟨y, k⟩ ⟨hy, hk32, hp⟩
    have hd : (xor2 (key y) k).length = 32 := xor2_length (hk y hy) hk32
    have h1 := hT _ hd y hy
    have hkey : key (T (xor2 (key y) k) y) = k := by
      rw [h1.2.1, Swift3.xor2_comm (key y) k, Swift3.xor2_comm (key y), xor2_self_right (by rw [hk32, hk y hy])]
    refine ⟨(T (xor2 (key y) k) y, xor2 (key y) k), ⟨⟨h1.1, ?_⟩, hd⟩, ?_⟩
    · simpa only [hkey] using hp
    · simp only [h1.2.2, hkey]

theorem seeds_total : {k : Bytes | k.length = 32}.ncard = 2 ^ 256 := by
  have h : {k : Bytes | k.length = 32}.ncard = Nat.card (Fin 32 → Byte) := by
    rw [← Nat.card_coe_set_eq]
    exact Nat.card_congr (Equiv.vectorEquivFin Byte 32)
  have hb : Nat.card Byte = 2 ^ 8 := by
    rw [Nat.card_congr BitVec.equivFin.toEquiv, Nat.card_eq_fintype_card, Fintype.card_fin]
  rw [h, Nat.card_fun, hb, Nat.card_eq_fintype_card, Fintype.card_fin, ← pow_mul]

theorem SeesEnd.of_runs {α : Type} {p : Party → Prog α} {i : Party} {r : Party → Log × α} (h : Runs (fun j => (p j).record []) r)
    (v : Log) (Q : (Party → α) → Prop) : SeesEnd p i v Q ↔ (v = (r i).1 ∧ Q fun j => (r j).2) := by
  constructor
  · rintro ⟨r', h', rfl, hq⟩
    rw [h'.unique h] at hq ⊢
    exact ⟨rfl, hq⟩
  · rintro ⟨rfl, hq⟩
    exact ⟨r, h.allSchedules, rfl, hq⟩

/-- If every draw `x` gives the view `view x` and the generator with the key `key x`, and there are shifts, the view and the
generator are independent. -/
theorem setup_indep {G : Prg} {X α : Type} {p : (Party → X) → Party → Prog α} {ok : X → Prop} {i : Party} {own : X} {v : Log}
    {gen : (Party → α) → G.S} {view : (Party → X) → Log} {key : (Party → X) → Bytes} {T : Bytes → (Party → X) → Party → X}
    (hr : ∀ x, (∀ j, ok (x j)) → ∃ r : Party → Log × α, Runs (fun j => (p x j).record []) r ∧ (r i).1 = view x ∧
      gen (fun j => (r j).2) = G.ofSeed (key x))
    (hk : ∀ x, (∀ j, ok (x j)) → (key x).length = 32)
    (hT : ∀ d : Bytes, d.length = 32 → ∀ x, (∀ j, ok (x j)) → (∀ j, ok (T d x j)) ∧ T d x i = x i ∧ view (T d x) = view x ∧
      key (T d x) = xor2 (key x) d ∧ T d (T d x) = x) (g : G.S) (N : Nat) (hN : {k : Bytes | k.length = 32}.ncard = N) :
    setupCount p ok i own v (fun r => gen r = g) * N = setupCount p ok i own v (fun _ => True) * seedCount G g := by
  have hs : ∀ Q : (Party → α) → Prop, ∀ x, (∀ j, ok (x j)) → (SeesEnd (p x) i v Q → v = view x) := by
    intro Q x hx h
    obtain ⟨r, h1, h2, -⟩ := hr x hx
    rw [← h2]; exact ((SeesEnd.of_runs h1 v Q).1 h).1
  have h := count_indep {x : Party → X | (∀ j, ok (x j)) ∧ x i = own ∧ v = view x} key T (fun k => G.ofSeed k = g)
    (fun x hx => hk x hx.1) (by
      rintro d hd x ⟨h1, h2, h3⟩
      obtain ⟨a, b, c, e, f⟩ := hT d hd x h1
      exact ⟨⟨a, b.trans h2, h3.trans c.symm⟩, e, f⟩)
  have e1 : {x : Party → X | (∀ j, ok (x j)) ∧ x i = own ∧ SeesEnd (p x) i v (fun r => gen r = g)} =
      {x | x ∈ {x : Party → X | (∀ j, ok (x j)) ∧ x i = own ∧ v = view x} ∧ G.ofSeed (key x) = g} := by
    ext x
    constructor
    · rintro ⟨h1, h2, h3⟩
      refine ⟨⟨h1, h2, hs _ x h1 h3⟩, ?_⟩
      obtain ⟨r, a, b, c⟩ := hr x h1
      rw [← c]; exact ((SeesEnd.of_runs a v _).1 h3).2
    · rintro ⟨⟨h1, h2, h3⟩, h4⟩
      obtain ⟨r, a, b, c⟩ := hr x h1
      exact ⟨h1, h2, (SeesEnd.of_runs a v _).2 ⟨h3.trans b.symm, c.trans h4⟩⟩
  have e2 : {x : Party → X | (∀ j, ok (x j)) ∧ x i = own ∧ SeesEnd (p x) i v (fun _ => True)} =
      {x : Party → X | (∀ j, ok (x j)) ∧ x i = own ∧ v = view x} := by
    ext x
    constructor
    · rintro ⟨h1, h2, h3⟩
      exact ⟨h1, h2, hs _ x h1 h3⟩
    · rintro ⟨h1, h2, h3⟩
      obtain ⟨r, a, b, c⟩ := hr x h1
      exact ⟨h1, h2, (SeesEnd.of_runs a v _).2 ⟨h3.trans b.symm, trivial⟩⟩
  unfold setupCount seedCount
  rw [e1, e2, ← hN]
  exact h

/-! ## The runs -/

theorem runs_of_eq {α : Type} {p : Party → Prog α} {r : Party → α} (h : WP p (· = r)) : Runs p r := by
  obtain ⟨_, h, rfl⟩ := h
  exact h

theorem record_ite {α : Type} {c : Prop} [Decidable c] (p q : Prog α) (l : Log) :
    (if c then p else q).record l = if c then p.record l else q.record l := by split <;> rfl

section aby3
variable {G : Prg} {V : Nat}

theorem aby3Setup_runs (seeds : Party → Bytes) (hs : ∀ j, (seeds j).length = 32) (st : Party → Aby3St G) :
    Runs (fun j => (Aby3.preprocess j (seeds j) (st j)).record []) fun j =>
      ([(j.prev, seeds j.prev)], ((), (⟨⟨G.ofSeed (seeds j), G.ofSeed (seeds j.prev)⟩⟩ : Aby3St G))) := by
  have e : ∀ j, (Aby3.preprocess j (seeds j) (st j)).record [] = .send j.next (seeds j) (.recv j.prev fun m =>
      ((Proto.lift (bytesToSeed m) >>= fun t => Proto.step fun s => ((), { s with prf := Prf.new (seeds j) t }) :
        Proto (Aby3St G) Unit) (st j)).record [(j.prev, m)]) := fun j => rfl
  simp only [e]
  obtain ⟨r, hr, rfl⟩ := WP.ring (m := seeds) (k := fun j m =>
      ((Proto.lift (bytesToSeed m) >>= fun t => Proto.step fun s => ((), { s with prf := Prf.new (seeds j) t }) :
        Proto (Aby3St G) Unit) (st j)).record [(j.prev, m)]) (Q := (· = fun j =>
      ([(j.prev, seeds j.prev)], ((), (⟨⟨G.ofSeed (seeds j), G.ofSeed (seeds j.prev)⟩⟩ : Aby3St G))))) (by
        simp only [bytesToSeed, hs, ne_eq, not_true_eq_false, if_false]
        exact WP.ret rfl)
  exact hr

theorem spdzSetup_runs (seeds : Party → Bytes) (hs : ∀ j, (seeds j).length = 32) (st : Party → SpdzSt G V) :
    Runs (fun j => (Spdz.preprocess j (seeds j) (st j)).record []) fun j =>
      ([(j.prev, seeds j.prev)], ((), { st j with jmp := { (st j).jmp with
        prf := ⟨G.ofSeed (seeds j), G.ofSeed (seeds j.prev)⟩ } })) := by
  have e : ∀ j, (Spdz.preprocess j (seeds j) (st j)).record [] = .send j.next (seeds j) (.recv j.prev fun m =>
      ((Spdz.viaAby (Proto.lift (bytesToSeed m) >>= fun t => Proto.step fun s => ((), { s with prf := Prf.new (seeds j) t })) :
        Proto (SpdzSt G V) Unit) (st j)).record [(j.prev, m)]) := fun j => rfl
  simp only [e]
  obtain ⟨r, hr, rfl⟩ := WP.ring (m := seeds) (k := fun j m =>
      ((Spdz.viaAby (Proto.lift (bytesToSeed m) >>= fun t => Proto.step fun s => ((), { s with prf := Prf.new (seeds j) t })) :
        Proto (SpdzSt G V) Unit) (st j)).record [(j.prev, m)]) (Q := (· = fun j =>
      ([(j.prev, seeds j.prev)], ((), { st j with jmp := { (st j).jmp with
        prf := ⟨G.ofSeed (seeds j), G.ofSeed (seeds j.prev)⟩ } })))) (by
        simp only [bytesToSeed, hs, ne_eq, not_true_eq_false, if_false]
        exact WP.ret rfl)
  exact hr

end aby3

section mal
variable {G : Prg} {H : Hash}

theorem malSetup_runs (x : Party → MalSetupIn) (hx : ∀ j, (x j).Sized) (st : Party → JmpSt G) :
    Runs (fun j => (MalAby3.setupPrfFromSeed H j (x j).seed1 (x j).seed2 (x j).rand1 (x j).rand2 (st j)).record []) fun j =>
      ([(j.next, H.h ((x j.next).seed2 ++ (x j.next).rand2)), (j.prev, H.h ((x j.prev).seed1 ++ (x j.prev).rand1)),
        (j.next, (x j.next).seed2 ++ (x j.next).rand2), (j.prev, (x j.prev).seed1 ++ (x j.prev).rand1)],
       ((), { st j with prf := .new (xor2 (x j).seed1 (x j.next).seed2) (xor2 (x j).seed2 (x j.prev).seed1) })) := by
  have e : ∀ j, MalAby3.setupPrfFromSeed H j (x j).seed1 (x j).seed2 (x j).rand1 (x j).rand2 (st j) = _ :=
    fun j => MalAby3.setup_eq _ _ _ _ _ (hx j).1 _
  simp only [e, MalAby3.setupProg, Prog.record, record_ite, List.nil_append, List.cons_append]
  refine runs_of_eq (MalAby3.WP.bothWays (x := fun j => H.h ((x j).seed1 ++ (x j).rand1))
    (y := fun j => H.h ((x j).seed2 ++ (x j).rand2)) ?_)
  simp only [H.len, ne_eq, not_true_eq_false, or_self, if_false]
  refine MalAby3.WP.bothWays (x := fun j => (x j).seed1 ++ (x j).rand1) (y := fun j => (x j).seed2 ++ (x j).rand2) ?_
  have l1 : ∀ j, ((x j).seed1 ++ (x j).rand1).length = 64 := fun j => by simp [(hx j).1, (hx j).2.2.1]
  have l2 : ∀ j, ((x j).seed2 ++ (x j).rand2).length = 64 := fun j => by simp [(hx j).2.1, (hx j).2.2.2]
  have t1 : ∀ j, ((x j).seed1 ++ (x j).rand1).take 32 = (x j).seed1 := fun j => List.take_left' (hx j).1
  have t2 : ∀ j, ((x j).seed2 ++ (x j).rand2).take 32 = (x j).seed2 := fun j => List.take_left' (hx j).2.1
  simp only [l1, l2, t1, t2, not_true_eq_false, or_self, if_false]
  exact WP.ret rfl

end mal

section swift3
variable {G : Prg} {H : Hash} {K : Nat}
open Swift3

/-- What party `k` sends to party `j`: commitments and openings. -/
def s3Comm (H : Hash) (x : SetupIn) (k j : Party) : Bytes :=
  H.h (x.to k j ++ (if (k = 0 ∧ j = 1) ∨ (k = 1 ∧ j = 0) ∨ (k = 2 ∧ j = 0) then x.r0 else x.r1)) ++ H.h (x.s2 ++ x.r2)
def s3Open (x : SetupIn) (k j : Party) : Bytes :=
  x.to k j ++ (if (k = 0 ∧ j = 1) ∨ (k = 1 ∧ j = 0) ∨ (k = 2 ∧ j = 0) then x.r0 else x.r1) ++ x.s2 ++ x.r2

/-- The other two parties. -/
def loOther : Party → Party | 0 => 1 | 1 => 0 | 2 => 0
def hiOther : Party → Party | 0 => 2 | 1 => 2 | 2 => 1

/-- The view of party `j`. -/
def s3View (H : Hash) (x : Party → SetupIn) (j : Party) : Log :=
  let p := loOther j
  let q := hiOther j
  [(p, s3Comm H (x p) p j), (q, s3Comm H (x q) q j), (p, s3Open (x p) p j), (q, s3Open (x q) q j)]

theorem s3Setup_runs (x : Party → SetupIn) (hx : ∀ j, (x j).Sized) (st : Party → S3St G K) :
    ∃ r, Runs (fun j => (setupPrfFromSeed H j (x j).s0 (x j).s1 (x j).s2 (x j).r0 (x j).r1 (x j).r2 (st j)).record []) r ∧
      ∀ j, (r j).1 = s3View H x j ∧
        (r j).2.2.prf.p1 = G.ofSeed (xor2 ((x j).to j j.next) ((x j.next).to j.next j)) ∧
        (r j).2.2.prf.p2 = G.ofSeed (xor2 ((x j.prev).to j.prev j) ((x j).to j j.prev)) := by
  have c1 : ∀ a b, (H.h a ++ H.h b).length = 128 := fun a b => by simp [H.len]
  have c2 : ∀ a b, (H.h a ++ H.h b).take 64 = H.h a := fun a b => List.take_left' (H.len _)
  have c3 : ∀ a b, (H.h a ++ H.h b).drop 64 = H.h b := fun a b => List.drop_left' (H.len _)
  have o1 : ∀ j, ((x j).s0 ++ (x j).r0 ++ (x j).s2 ++ (x j).r2).length = 128 := fun j => by
    obtain ⟨h1, h2, h3, h4, h5, h6⟩ := hx j
    simp [h1, h3, h4, h6]
  have o2 : ∀ j, ((x j).s1 ++ (x j).r1 ++ (x j).s2 ++ (x j).r2).length = 128 := fun j => by
    obtain ⟨h1, h2, h3, h4, h5, h6⟩ := hx j
    simp [h2, h3, h5, h6]
  have p1 := fun j => split128 (d := (x j).r2) (hx j).1 (hx j).2.2.2.1 (hx j).2.2.1
  have p2 := fun j => split128 (d := (x j).r2) (hx j).2.1 (hx j).2.2.2.2.1 (hx j).2.2.1
  have key : WP (fun j => (setupPrfFromSeed H j (x j).s0 (x j).s1 (x j).s2 (x j).r0 (x j).r1 (x j).r2 (st j)).record []) fun r =>
      ∀ j, (r j).1 = s3View H x j ∧
        (r j).2.2.prf.p1 = G.ofSeed (xor2 ((x j).to j j.next) ((x j.next).to j.next j)) ∧
        (r j).2.2.prf.p2 = G.ofSeed (xor2 ((x j.prev).to j.prev j) ((x j).to j j.prev)) := by
    apply WP.of3
    rw [setup0 _ (hx 0), setup1 _ (hx 1), setup2 _ (hx 2)]
    simp only [setupProg, Prog.record, record_ite, List.nil_append, List.cons_append]
    run3
    simp only [c1, c2, c3, ne_eq, not_true_eq_false, or_self, if_false]
    run3
    simp only [o1, o2, (p1 _).1, (p1 _).2.1, (p1 _).2.2.1, (p2 _).1, (p2 _).2.1, (p2 _).2.2.1, not_true_eq_false, or_self, if_false]
    refine R3.done ?_
    intro r h0 h1 h2 j
    rcases (by decide : ∀ i : Party, i = 0 ∨ i = 1 ∨ i = 2) j with rfl | rfl | rfl
    · rw [h0, xor2_comm ((x (0 : Party).prev).to _ _)]
      exact ⟨rfl, rfl, rfl⟩
    · rw [h1, xor2_comm ((x (1 : Party).prev).to _ _)]
      exact ⟨rfl, rfl, rfl⟩
    · rw [h2, xor2_comm ((x (2 : Party).prev).to _ _)]
      exact ⟨rfl, rfl, rfl⟩
  exact key

end swift3

/-! ## The counts are finite -/

abbrev Seed32 := List.Vector Byte 32

instance : Finite Byte := Finite.of_equiv _ (BitVec.equivFin (m := 8)).toEquiv.symm

theorem finite_seeds : {k : Bytes | k.length = 32}.Finite :=
  (Set.finite_range fun t : Seed32 => t.1).subset fun k hk => ⟨⟨k, hk⟩, rfl⟩

theorem finite_mal : {x : MalSetupIn | x.Sized}.Finite :=
  (Set.finite_range fun t : Seed32 × Seed32 × Seed32 × Seed32 => (⟨t.1.1, t.2.1.1, t.2.2.1.1, t.2.2.2.1⟩ : MalSetupIn)).subset
    fun x hx => ⟨(⟨_, hx.1⟩, ⟨_, hx.2.1⟩, ⟨_, hx.2.2.1⟩, ⟨_, hx.2.2.2⟩), rfl⟩

theorem finite_s3 : {x : Swift3.SetupIn | x.Sized}.Finite :=
  (Set.finite_range fun t : Seed32 × Seed32 × Seed32 × Seed32 × Seed32 × Seed32 =>
    (⟨t.1.1, t.2.1.1, t.2.2.1.1, t.2.2.2.1.1, t.2.2.2.2.1.1, t.2.2.2.2.2.1⟩ : Swift3.SetupIn)).subset
    fun x hx => ⟨(⟨_, hx.1⟩, ⟨_, hx.2.1⟩, ⟨_, hx.2.2.1⟩, ⟨_, hx.2.2.2.1⟩, ⟨_, hx.2.2.2.2.1⟩, ⟨_, hx.2.2.2.2.2⟩), rfl⟩

theorem setupCount_pos {X α : Type} {p : (Party → X) → Party → Prog α} {ok : X → Prop} {i : Party} {v : Log}
    {Q : (Party → α) → Prop} (hf : {x | ok x}.Finite) (x : Party → X) (hx : ∀ j, ok (x j)) (h : SeesEnd (p x) i v Q) :
    0 < setupCount p ok i (x i) v Q := by
  refine (Set.ncard_pos ?_).2 ⟨x, hx, rfl, h⟩
  refine (Set.Finite.pi' fun _ : Party => hf).subset ?_
  rintro y ⟨hy, -⟩
  exact hy

theorem SeesEnd.of_sees {α : Type} {p : Party → Prog α} {i : Party} {v : Log} (h : Sees p i v) : SeesEnd p i v fun _ => True := by
  obtain ⟨r, h1, h2⟩ := h
  exact ⟨r, h1, h2, trivial⟩

end Verif
