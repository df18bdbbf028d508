import Verif.Proof.SetupPrivacy
import Verif.Proof.Examples
import Verif.Props.Aby3

/-! # C94: the set-up tells a party nothing about the generator of the other two

The privacy theorems C68, C84, C87, C89–C93 give the generator that party `i` does not know a uniformly random tape. In the
program it is seeded in the set-up, in messages between the other two parties. Here the seeds and the randomness of the
commitments that the other two parties draw are the random choices: for every view `v` of party `i` and every generator `g`, the
number of choices with the view `v` after which the generator of the other two is `g` is the number of choices with the view
`v`, times the fraction of seeds that give `g`. So view and generator are independent, and the generator has the distribution
of one with a uniformly random seed. The commitments of the malicious backends are part of the view; nothing is assumed about
the hash function, and nothing about the generator. -/

namespace Verif

open Swift3 (xor2 SetupIn)

variable {G : Prg} {H : Hash} {V K : Nat}

/-- Seeds of 32 bytes: there are `2 ^ 256`. -/
theorem C94_seeds : {k : Bytes | k.length = 32}.ncard = 2 ^ 256 := seeds_total

/-! ## ABY3 -/

/-- `preprocess`: party `i` receives the seed of its predecessor and nothing else. -/
theorem C94_aby3_view (i : Party) (seeds : Party → Bytes) (hs : ∀ j, (seeds j).length = 32) (st : Party → Aby3St G) (v : Log) :
    Sees (fun j => Aby3.preprocess j (seeds j) (st j)) i v ↔ v = [(i.prev, seeds i.prev)] :=
  Sees.of_runs (aby3Setup_runs seeds hs st) v

theorem C94_aby3 (i : Party) (own : Bytes) (st : Party → Aby3St G) (v : Log) (g : G.S) :
    setupCount (fun seeds j => Aby3.preprocess j (seeds j) (st j)) (·.length = 32) i own v
      (fun r => (r i.next).2.prf.my = g) * 2 ^ 256 =
    setupCount (fun seeds j => Aby3.preprocess j (seeds j) (st j)) (·.length = 32) i own v (fun _ => True) * seedCount G g := by
  have hN := seeds_total
  generalize 2 ^ 256 = N at hN ⊢
  have n1 : i.next ≠ i := by clear * -; revert i; decide
  have n2 : i.next ≠ i.prev := by clear * -; revert i; decide
  refine setup_indep (p := fun (seeds : Party → Bytes) j => Aby3.preprocess j (seeds j) (st j)) (ok := fun s => s.length = 32)
    (gen := fun r => (r i.next).2.prf.my) (view := fun x => [(i.prev, x i.prev)]) (key := fun x => x i.next)
    (T := fun d x => Function.update x i.next (xor2 (x i.next) d))
    (fun x hx => ⟨_, aby3Setup_runs x hx st, rfl, rfl⟩) (fun x hx => hx _) ?_ g N hN
  intro d hd x hx
  refine ⟨fun j => ?_, ?_, ?_, ?_, ?_⟩
  · by_cases h : j = i.next
    · subst h; rw [Function.update_self]; exact xor2_length (hx _) hd
    · rw [Function.update_of_ne h]; exact hx j
  · rw [Function.update_of_ne n1.symm]
  · rw [Function.update_of_ne n2.symm]
  · rw [Function.update_self]
  · funext j
    by_cases h : j = i.next
    · subst h; rw [Function.update_self, Function.update_self, xor2_self_right (by rw [hx, hd])]
    · rw [Function.update_of_ne h, Function.update_of_ne h]

/-! ## SPDZ-wise -/

theorem C94_spdz_view (i : Party) (seeds : Party → Bytes) (hs : ∀ j, (seeds j).length = 32) (st : Party → SpdzSt G V) (v : Log) :
    Sees (fun j => Spdz.preprocess j (seeds j) (st j)) i v ↔ v = [(i.prev, seeds i.prev)] :=
  Sees.of_runs (spdzSetup_runs seeds hs st) v

theorem C94_spdz (i : Party) (own : Bytes) (st : Party → SpdzSt G V) (v : Log) (g : G.S) :
    setupCount (fun seeds j => Spdz.preprocess j (seeds j) (st j)) (·.length = 32) i own v
      (fun r => (r i.next).2.jmp.prf.my = g) * 2 ^ 256 =
    setupCount (fun seeds j => Spdz.preprocess j (seeds j) (st j)) (·.length = 32) i own v (fun _ => True) * seedCount G g := by
  have hN := seeds_total
  generalize 2 ^ 256 = N at hN ⊢
  have n1 : i.next ≠ i := by clear * -; revert i; decide
  have n2 : i.next ≠ i.prev := by clear * -; revert i; decide
  refine setup_indep (p := fun (seeds : Party → Bytes) j => Spdz.preprocess j (seeds j) (st j)) (ok := fun s => s.length = 32)
    (gen := fun r => (r i.next).2.jmp.prf.my) (view := fun x => [(i.prev, x i.prev)]) (key := fun x => x i.next)
    (T := fun d x => Function.update x i.next (xor2 (x i.next) d))
    (fun x hx => ⟨_, spdzSetup_runs x hx st, rfl, rfl⟩) (fun x hx => hx _) ?_ g N hN
  intro d hd x hx
  refine ⟨fun j => ?_, ?_, ?_, ?_, ?_⟩
  · by_cases h : j = i.next
    · subst h; rw [Function.update_self]; exact xor2_length (hx _) hd
    · rw [Function.update_of_ne h]; exact hx j
  · rw [Function.update_of_ne n1.symm]
  · rw [Function.update_of_ne n2.symm]
  · rw [Function.update_self]
  · funext j
    by_cases h : j = i.next
    · subst h; rw [Function.update_self, Function.update_self, xor2_self_right (by rw [hx, hd])]
    · rw [Function.update_of_ne h, Function.update_of_ne h]

/-! ## Malicious ABY3 -/

/-- Party `i` sees one seed of each neighbour, with the commitments before and the commitment randomness after it. -/
theorem C94_mal_view (i : Party) (x : Party → MalSetupIn) (hx : ∀ j, (x j).Sized) (st : Party → JmpSt G) (v : Log) :
    Sees (fun j => MalAby3.setupPrfFromSeed H j (x j).seed1 (x j).seed2 (x j).rand1 (x j).rand2 (st j)) i v ↔
      v = [(i.next, H.h ((x i.next).seed2 ++ (x i.next).rand2)), (i.prev, H.h ((x i.prev).seed1 ++ (x i.prev).rand1)),
        (i.next, (x i.next).seed2 ++ (x i.next).rand2), (i.prev, (x i.prev).seed1 ++ (x i.prev).rand1)] :=
  Sees.of_runs (malSetup_runs x hx st) v

theorem C94_mal (i : Party) (own : MalSetupIn) (st : Party → JmpSt G) (v : Log) (g : G.S) :
    setupCount (fun x j => MalAby3.setupPrfFromSeed H j (x j).seed1 (x j).seed2 (x j).rand1 (x j).rand2 (st j)) MalSetupIn.Sized i
      own v (fun r => (r i.next).2.prf.my = g) * 2 ^ 256 =
    setupCount (fun x j => MalAby3.setupPrfFromSeed H j (x j).seed1 (x j).seed2 (x j).rand1 (x j).rand2 (st j)) MalSetupIn.Sized i
      own v (fun _ => True) * seedCount G g := by
  have hN := seeds_total
  generalize 2 ^ 256 = N at hN ⊢
  have n1 : i.next ≠ i := by clear * -; revert i; decide
  have n2 : i.next ≠ i.prev := by clear * -; revert i; decide
  have nn : i.next.next = i.prev := by clear * -; revert i; decide
  refine setup_indep (p := fun (x : Party → MalSetupIn) j =>
      MalAby3.setupPrfFromSeed H j (x j).seed1 (x j).seed2 (x j).rand1 (x j).rand2 (st j)) (gen := fun r => (r i.next).2.prf.my)
    (view := fun x => [(i.next, H.h ((x i.next).seed2 ++ (x i.next).rand2)), (i.prev, H.h ((x i.prev).seed1 ++ (x i.prev).rand1)),
        (i.next, (x i.next).seed2 ++ (x i.next).rand2), (i.prev, (x i.prev).seed1 ++ (x i.prev).rand1)])
    (key := fun x => xor2 (x i.next).seed1 (x i.prev).seed2)
    (T := fun d x => Function.update x i.next { x i.next with seed1 := xor2 (x i.next).seed1 d })
    (fun x hx => ⟨_, malSetup_runs x hx st, rfl, by rw [← nn]; rfl⟩) (fun x hx => xor2_length (hx _).1 (hx _).2.1) ?_ g N hN
  intro d hd x hx
  refine ⟨fun j => ?_, ?_, ?_, ?_, ?_⟩
  · by_cases h : j = i.next
    · subst h; rw [Function.update_self]; exact ⟨xor2_length (hx _).1 hd, (hx _).2⟩
    · rw [Function.update_of_ne h]; exact hx j
  · rw [Function.update_of_ne n1.symm]
  · simp only [Function.update_of_ne n2.symm, Function.update_self]
  · simp only [Function.update_of_ne n2.symm, Function.update_self]
    exact xor2_right_comm _ _ _
  · funext j
    by_cases h : j = i.next
    · subst h; simp only [Function.update_self]; rw [xor2_self_right (by rw [(hx _).1, hd])]
    · rw [Function.update_of_ne h, Function.update_of_ne h]

/-! ## Swift3

The generator of the other two is `p1` of the successor of `i` and `p2` of its predecessor. The generator that all three
parties have in common is known to `i`. -/

/-- A party's two neighbours agree on the generator that it does not know, whatever was drawn. -/
theorem C94_swift3_agree (i : Party) (x : Party → SetupIn) (hx : ∀ j, (x j).Sized) (st : Party → S3St G K) :
    EverySchedule (fun j => Swift3.setupPrfFromSeed H j (x j).s0 (x j).s1 (x j).s2 (x j).r0 (x j).r1 (x j).r2) st
      (fun _ st' => (st' i.next).prf.p1 = G.ofSeed (xor2 ((x i.next).to i.next i.prev) ((x i.prev).to i.prev i.next)) ∧
        (st' i.prev).prf.p2 = (st' i.next).prf.p1) := by
  have nn : i.next.next = i.prev := by clear * -; revert i; decide
  have pp : i.prev.prev = i.next := by clear * -; revert i; decide
  have h := Swift3.setup_wp (H := H) (K := K) (G := G) (fun j => (x j).s0) (fun j => (x j).s1) (fun j => (x j).s2) (fun j => (x j).r0)
    (fun j => (x j).r1) (fun j => (x j).r2) (fun j => (hx j).1) (fun j => (hx j).2.1) (fun j => (hx j).2.2.1)
    (fun j => (hx j).2.2.2.1) (fun j => (hx j).2.2.2.2.1) (fun j => (hx j).2.2.2.2.2) st
  refine (h.mono ?_).allSchedules
  intro _ st' h
  have e : ∀ a b, Swift3.xorB a b = xor2 a b := fun a b => by simp only [Swift3.xorB, xor2, BitVec.xor_comm]
  rw [h, h]
  rcases (by decide : ∀ i : Party, i = 0 ∨ i = 1 ∨ i = 2) i with rfl | rfl | rfl
  · exact ⟨congrArg G.ofSeed (e _ _), congrArg G.ofSeed (Swift3.xorB_comm _ _)⟩
  · exact ⟨congrArg G.ofSeed (e _ _), congrArg G.ofSeed (Swift3.xorB_comm _ _)⟩
  · exact ⟨congrArg G.ofSeed (e _ _), congrArg G.ofSeed (Swift3.xorB_comm _ _)⟩

theorem C94_swift3 (i : Party) (own : SetupIn) (st : Party → S3St G K) (v : Log) (g : G.S) :
    setupCount (fun x j => Swift3.setupPrfFromSeed H j (x j).s0 (x j).s1 (x j).s2 (x j).r0 (x j).r1 (x j).r2 (st j)) SetupIn.Sized i
      own v (fun r => (r i.next).2.prf.p1 = g) * 2 ^ 256 =
    setupCount (fun x j => Swift3.setupPrfFromSeed H j (x j).s0 (x j).s1 (x j).s2 (x j).r0 (x j).r1 (x j).r2 (st j)) SetupIn.Sized i
      own v (fun _ => True) * seedCount G g := by
  have hN := seeds_total
  generalize 2 ^ 256 = N at hN ⊢
  have n1 : i.next ≠ i := by clear * -; revert i; decide
  have n2 : i.next ≠ i.prev := by clear * -; revert i; decide
  have nn : i.next.next = i.prev := by clear * -; revert i; decide
  refine setup_indep (p := fun (x : Party → SetupIn) j =>
      Swift3.setupPrfFromSeed H j (x j).s0 (x j).s1 (x j).s2 (x j).r0 (x j).r1 (x j).r2 (st j)) (gen := fun r => (r i.next).2.prf.p1) (view := fun x => s3View H x i)
    (key := fun x => xor2 ((x i.next).to i.next i.prev) ((x i.prev).to i.prev i.next))
    (T := fun d x => Function.update x i.next (if i = 0 then { x i.next with s1 := xor2 (x i.next).s1 d }
      else { x i.next with s0 := xor2 (x i.next).s0 d })) ?_ ?_ ?_ g N hN
  · intro x hx
    obtain ⟨r, h1, h2⟩ := s3Setup_runs (H := H) x hx st
    refine ⟨r, h1, (h2 i).1, ?_⟩
    have := (h2 i.next).2.1
    rw [nn] at this
    exact this
  · intro x hx
    refine xor2_length ?_ ?_ <;> (unfold SetupIn.to; split <;> [exact (hx _).1; exact (hx _).2.1])
  · intro d hd x hx
    refine ⟨fun j => ?_, ?_, ?_, ?_, ?_⟩
    · by_cases h : j = i.next
      · subst h; rw [Function.update_self]
        split
        · exact ⟨(hx _).1, xor2_length (hx _).2.1 hd, (hx _).2.2⟩
        · exact ⟨xor2_length (hx _).1 hd, (hx _).2⟩
      · rw [Function.update_of_ne h]; exact hx j
    · rw [Function.update_of_ne n1.symm]
    · rcases (by decide : ∀ i : Party, i = 0 ∨ i = 1 ∨ i = 2) i with rfl | rfl | rfl <;> rfl
    · rcases (by decide : ∀ i : Party, i = 0 ∨ i = 1 ∨ i = 2) i with rfl | rfl | rfl <;> exact xor2_right_comm _ _ _
    · funext j
      by_cases h : j = i.next
      · subst h; simp only [Function.update_self]
        split
        · simp only; rw [xor2_self_right (by rw [(hx _).2.1, hd])]
        · simp only; rw [xor2_self_right (by rw [(hx _).1, hd])]
      · rw [Function.update_of_ne h, Function.update_of_ne h]

/-! ## The counts are finite

`Set.ncard` of an infinite set is 0; so that the equations above are not such cases: the numbers are positive for every view
that occurs. -/

theorem C94_aby3_occurs (i : Party) (seeds : Party → Bytes) (hs : ∀ j, (seeds j).length = 32) (st : Party → Aby3St G) (v : Log)
    (h : Sees (fun j => Aby3.preprocess j (seeds j) (st j)) i v) :
    0 < setupCount (fun seeds j => Aby3.preprocess j (seeds j) (st j)) (·.length = 32) i (seeds i) v (fun _ => True) :=
  setupCount_pos finite_seeds seeds hs (.of_sees h)

theorem C94_spdz_occurs (i : Party) (seeds : Party → Bytes) (hs : ∀ j, (seeds j).length = 32) (st : Party → SpdzSt G V) (v : Log)
    (h : Sees (fun j => Spdz.preprocess j (seeds j) (st j)) i v) :
    0 < setupCount (fun seeds j => Spdz.preprocess j (seeds j) (st j)) (·.length = 32) i (seeds i) v (fun _ => True) :=
  setupCount_pos finite_seeds seeds hs (.of_sees h)

theorem C94_mal_occurs (i : Party) (x : Party → MalSetupIn) (hx : ∀ j, (x j).Sized) (st : Party → JmpSt G) (v : Log)
    (h : Sees (fun j => MalAby3.setupPrfFromSeed H j (x j).seed1 (x j).seed2 (x j).rand1 (x j).rand2 (st j)) i v) :
    0 < setupCount (fun x j => MalAby3.setupPrfFromSeed H j (x j).seed1 (x j).seed2 (x j).rand1 (x j).rand2 (st j))
      MalSetupIn.Sized i (x i) v (fun _ => True) :=
  setupCount_pos finite_mal x hx (.of_sees h)

theorem C94_swift3_occurs (i : Party) (x : Party → SetupIn) (hx : ∀ j, (x j).Sized) (st : Party → S3St G K) (v : Log)
    (h : Sees (fun j => Swift3.setupPrfFromSeed H j (x j).s0 (x j).s1 (x j).s2 (x j).r0 (x j).r1 (x j).r2 (st j)) i v) :
    0 < setupCount (fun x j => Swift3.setupPrfFromSeed H j (x j).s0 (x j).s1 (x j).s2 (x j).r0 (x j).r1 (x j).r2 (st j))
      SetupIn.Sized i (x i) v (fun _ => True) :=
  setupCount_pos finite_s3 x hx (.of_sees h)

/-- Every seed gives some generator. -/
theorem C94_seed_occurs (k : Bytes) (h : k.length = 32) : 0 < seedCount G (G.ofSeed k) :=
  (Set.ncard_pos (finite_seeds.subset fun _ hk => hk.1)).2 ⟨k, h, rfl⟩

/-- All of them see something. -/
theorem C94_one_view (i : Party) (x : Party → MalSetupIn) (hx : ∀ j, (x j).Sized) (st : Party → JmpSt G)
    (y : Party → SetupIn) (hy : ∀ j, (y j).Sized) (st' : Party → S3St G K) :
    (∃! v, Sees (fun j => MalAby3.setupPrfFromSeed H j (x j).seed1 (x j).seed2 (x j).rand1 (x j).rand2 (st j)) i v) ∧
    (∃! v, Sees (fun j => Swift3.setupPrfFromSeed H j (y j).s0 (y j).s1 (y j).s2 (y j).r0 (y j).r1 (y j).r2 (st' j)) i v) := by
  constructor
  · exact ⟨_, (C94_mal_view i x hx st _).2 rfl, fun v hv => (C94_mal_view i x hx st v).1 hv⟩
  · obtain ⟨r, hr, -⟩ := s3Setup_runs (H := H) y hy st'
    exact ⟨_, (Sees.of_runs hr _).2 rfl, fun v hv => (Sees.of_runs hr v).1 hv⟩

/-! ## The theorems speak about possible views -/

/-- A view of party 0 that occurs. -/
example (st : Party → Aby3St G) : exSeed ∈ {x : Party → Bytes | (∀ j, (x j).length = 32) ∧ x 0 = exSeed 0 ∧
    SeesEnd (fun j => Aby3.preprocess j (x j) (st j)) 0 [((0 : Party).prev, exSeed (0 : Party).prev)] fun _ => True} := by
  have h : ∀ j, (exSeed j).length = 32 := fun j => by simp [exSeed]
  exact ⟨h, rfl, (SeesEnd.of_runs (aby3Setup_runs exSeed h st) _ _).2 ⟨rfl, trivial⟩⟩

example : ∀ j : Party, (⟨exSeed j, exSeed j.next, exSeed j, exSeed j⟩ : MalSetupIn).Sized := fun j => by
  simp [MalSetupIn.Sized, exSeed]

example : ∀ j : Party, (⟨exSeed j, exSeed j.next, exSeed j, exSeed j, exSeed j, exSeed j⟩ : SetupIn).Sized := fun j => by
  simp [SetupIn.Sized, exSeed]

end Verif
