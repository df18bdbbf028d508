import Verif.Props.Swift3PairQuery
import Verif.Proof.Swift3Setup

/-!
# C82: set-up of the Swift3 generators with a corrupt party

The corrupt party is `i.prev`; nothing is assumed about it in the first theorem. In the other two it runs the program
`twoSeeds` of `Spec/Swift3Setup.lean`.
-/

namespace Verif

open Swift3

variable {G : Prg} {H : Hash} {K : Nat}

theorem fresh_pair (p p' : S3Prf G) (h : PairPrf p p') : PairOk (Swift3.new p : S3St G K) (Swift3.new p') := by
  refine ⟨h, ⟨rfl, rfl⟩, ⟨0, ⟨rfl, rfl, rfl⟩, rfl, rfl, rfl⟩, ⟨0, ⟨rfl, rfl, rfl⟩, rfl, rfl, rfl⟩,
    ⟨0, ⟨rfl, rfl, rfl⟩, ⟨rfl, rfl, rfl⟩, rfl, rfl, ?_⟩⟩
  intro q x y hx
  simp [Swift3.new, DProof.empty] at hx

/-- Set-up with any corrupt party: if both honest parties finish, then each has received two commitments and a message that
opens them; the generator of the two honest parties is the same at both and comes from the exclusive or of the seeds they have for each
other; the common generator of each comes from the exclusive or of the seeds of the honest parties
and of the one it was sent. If the corrupt party has sent the same commitment of its seed for the common generator to
both, then their states fit together (`PairOk`, the condition of C77 to C81), or the two openings are a hash collision. -/
theorem C82_setup (i : Party) (x : Party → SetupIn) (hx : ∀ k, (x k).Sized) (p : Party → S3Prf G)
    (rcvd sent : Party → Party → List Bytes) (out : Party → Unit × S3St G K)
    (hv : HonestViews (fun k => setupPrfFromSeed H k (x k).s0 (x k).s1 (x k).s2 (x k).r0 (x k).r1 (x k).r2
      (Swift3.new (p k) : S3St G K)) i.prev rcvd sent out) :
    ∃ cm op cm' op', rcvd i i.prev = [cm, op] ∧ rcvd i.next i.prev = [cm', op'] ∧ SetupOpens H cm op ∧ SetupOpens H cm' op' ∧
      (out i).2.prf.p1 = G.ofSeed (xor2 ((x i).to i i.next) ((x i.next).to i.next i)) ∧
      (out i.next).2.prf.p2 = (out i).2.prf.p1 ∧
      (out i).2.prf.pp = G.ofSeed (xor3 (x i).s2 (x i.next).s2 (commonSeed op)) ∧
      (out i.next).2.prf.pp = G.ofSeed (xor3 (x i).s2 (x i.next).s2 (commonSeed op')) ∧
      (cm.drop 64 = cm'.drop 64 → Collision H (op.drop 64) (op'.drop 64) ∨ PairOk (out i).2 (out i.next).2) := by
  obtain ⟨cm, op, cm', op', h1, h2, h3, h4, h5, h6⟩ :=
    (setup_p2 (H := H) i (x i) (x i.next) (hx i) (hx i.next) (Swift3.new (p i)) (Swift3.new (p i.next))).views hv
  refine ⟨cm, op, cm', op', h1, h2, h3, h4, by rw [h5]; rfl, by rw [h5, h6]; rfl, by rw [h5]; rfl, by rw [h6]; rfl, ?_⟩
  intro e
  have e' : H.h (op.drop 64) = H.h (op'.drop 64) := by
    rw [h3.2.2, h4.2.2, List.drop_left' (H.len _), List.drop_left' (H.len _)] at e
    exact e
  rcases collision_or (H := H) (m := op.drop 64) (x := op'.drop 64) e' with h | h
  · exact .inl h
  right
  rw [h5, h6]
  refine fresh_pair _ _ ⟨rfl, ?_⟩
  show G.ofSeed _ = G.ofSeed _
  unfold commonSeed
  rw [h]

/-- Negative result: commitments and openings are sent to each party separately and not compared, so the corrupt party can
make the honest parties end with different common generators. Under every schedule both accept. -/
theorem C82_setup_differ (i : Party) (x : Party → SetupIn) (hx : ∀ k, (x k).Sized) (st : Party → S3St G K) (o o' e : Bytes)
    (ho : o.length = 128) (ho' : o'.length = 128) (hd : commonSeed o ≠ commonSeed o') :
    ∃ out u u', AllSchedules (corrupt (fun k => setupPrfFromSeed H k (x k).s0 (x k).s1 (x k).s2 (x k).r0 (x k).r1 (x k).r2 (st k))
        i.prev (twoSeeds H i o o' e (st i.prev))) out ∧
      (out i).2.prf.pp = G.ofSeed u ∧ (out i.next).2.prf.pp = G.ofSeed u' ∧ u ≠ u' := by
  obtain ⟨r, s, ⟨h, -⟩, e1, e2, -⟩ := (twoSetup_wp (H := H) i x hx o o' e ho ho' st).allSchedules
  refine ⟨fun k => (r k, s k), _, _, ?_, by dsimp only; rw [e1]; rfl, by dsimp only; rw [e2]; rfl, ?_⟩
  · have : corrupt (fun k => setupPrfFromSeed H k (x k).s0 (x k).s1 (x k).s2 (x k).r0 (x k).r1 (x k).r2 (st k))
        i.prev (twoSeeds H i o o' e (st i.prev)) = fun k => twoSetup H i x o o' e k (st k) := by
      funext k
      unfold corrupt twoSetup
      split
      · next h => rw [h]
      · rfl
    rw [this]
    exact h
  · intro h'
    have l : ∀ o : Bytes, o.length = 128 → (commonSeed o).length = 32 := fun o h => by simp [commonSeed, h]
    exact hd (xor3_inj (hx i).2.2.1 (hx i.next).2.2.1 (l o ho) (l o' ho') h')

/-- Negative result: this corrupt party can shift the inputs of the honest parties, and nothing is noticed. Set-up, then
`input` of the value `v` by the honest party `d`, then `open`: the corrupt party follows the protocol except for the two
different contributions to the common generator (it keeps the one it has sent to the other honest party). Under every
schedule all parties finish, and the opened value is `v` plus the difference of the first outputs of the two common
generators. -/
theorem C82_input_shifted (i : Party) (x : Party → SetupIn) (hx : ∀ k, (x k).Sized) (p : Party → S3Prf G) (o o' : Bytes)
    (ho : o.length = 128) (ho' : o'.length = 128) (d : Party) (hd : d = i ∨ d = i.next) (v : BitVec K)
    (g g' : G.S) (hg : g = G.ofSeed (xor3 (x i).s2 (x i.next).s2 (commonSeed (if d = i then o else o'))))
    (hg' : g' = G.ofSeed (xor3 (x i).s2 (x i.next).s2 (commonSeed (if d = i then o' else o))))
    (rest : Party → Proto (S3St G K) (BitVec K))
    (hrest : rest = fun k => do let s ← input k (if k = d then some v else none) d.val; openShare H k s) :
    ∃ out, AllSchedules (corrupt (fun k => (setupPrfFromSeed H k (x k).s0 (x k).s1 (x k).s2 (x k).r0 (x k).r1 (x k).r2
          >>= fun _ => rest k) (Swift3.new (p k)))
        i.prev ((twoSeeds H i o o' (commonSeed (if d = i then o' else o)) >>= fun _ => rest i.prev) (Swift3.new (p i.prev)))) out ∧
      (out i).1 = v + (G.gen K g).1 - (G.gen K g').1 ∧ (out i.next).1 = v + (G.gen K g).1 - (G.gen K g').1 := by
  subst hrest
  have key : WPS (fun k => twoSetup H i x o o' (commonSeed (if d = i then o' else o)) k >>= fun _ => do
      let s ← input k (if k = d then some v else none) d.val
      openShare H k s) (fun k => (Swift3.new (p k) : S3St G K))
      (fun r _ => ∀ k, r k = v + (G.gen K g).1 - (G.gen K g').1) := by
    refine WPS.bind ((twoSetup_wp i x hx o o' _ ho ho' _).mono ?_)
    rintro _ st ⟨h1, h2, h3⟩
    have hp : ∀ k, (st k).prf.p1 = (st k.next).prf.p2 := by
      intro k
      have nn : i.next.next = i.prev := (by decide : ∀ i : Party, i.next.next = i.prev) i
      rcases (by decide : ∀ i k : Party, k = i ∨ k = i.next ∨ k = i.prev) i k with rfl | rfl | rfl
      · rw [h1, h2]; rfl
      · rw [nn, h2, h3]; rfl
      · rw [Party.next_prev, h1, h3]; rfl
    have hq : S3QueuesOk st := by
      have e : ∀ k, (st k).sendQNext = [] ∧ (st k).sendQPrev = [] ∧ (st k).rcvQNext = [] ∧ (st k).rcvQPrev = [] := by
        intro k
        rcases (by decide : ∀ i k : Party, k = i ∨ k = i.next ∨ k = i.prev) i k with rfl | rfl | rfl
        · rw [h1]; exact ⟨rfl, rfl, rfl, rfl⟩
        · rw [h2]; exact ⟨rfl, rfl, rfl, rfl⟩
        · rw [h3]; exact ⟨rfl, rfl, rfl, rfl⟩
      exact ⟨fun k => by rw [(e k).2.2.2, (e k.prev).1], fun k => by rw [(e k).2.2.1, (e k.next).2.1]⟩
    have hgg : (st d).prf.pp = g ∧ (st d.next).prf.pp = g' ∧ (st d.prev).prf.pp = g' := by
      rcases hd with rfl | rfl
      · rw [if_pos rfl] at hg hg' h3
        rw [h1, h2, h3, hg, hg']
        exact ⟨rfl, rfl, rfl⟩
      · have nn : i.next.next = i.prev := (by decide : ∀ i : Party, i.next.next = i.prev) i
        have np : i.next.prev = i := (by decide : ∀ i : Party, i.next.prev = i) i
        rw [if_neg (Party.next_ne i)] at hg hg' h3
        rw [nn, np, h1, h2, h3, hg, hg']
        exact ⟨rfl, rfl, rfl⟩
    refine WPS.bind ((input_shifted (x := v) (by simp) hq hp (hgg.2.2.trans hgg.2.1.symm)).mono ?_)
    rintro s st' ⟨hs, hq'⟩
    rw [hgg.1, hgg.2.1] at hs
    exact (openShare_queues hs hq').mono fun r _ h => h.1
  obtain ⟨r, s, ⟨h, -⟩, e⟩ := key.allSchedules
  refine ⟨fun k => (r k, s k), ?_, e i, e i.next⟩
  have : corrupt (fun k => (setupPrfFromSeed H k (x k).s0 (x k).s1 (x k).s2 (x k).r0 (x k).r1 (x k).r2
        >>= fun _ => do
          let s ← input k (if k = d then some v else none) d.val
          openShare H k s) (Swift3.new (p k) : S3St G K))
      i.prev ((twoSeeds H i o o' (commonSeed (if d = i then o' else o)) >>= fun _ => do
          let s ← input i.prev (if i.prev = d then some v else none) d.val
          openShare H i.prev s) (Swift3.new (p i.prev))) =
      fun k => (twoSetup H i x o o' (commonSeed (if d = i then o' else o)) k >>= fun _ => do
          let s ← input k (if k = d then some v else none) d.val
          openShare H k s) (Swift3.new (p k)) := by
    funext k
    unfold corrupt twoSetup
    split
    · next h => rw [h]
    · rfl
  rw [this]
  exact h

/-- Such contributions, for which the opened value is wrong. -/
def exSetupIn (k : Party) : SetupIn := ⟨exSeed k, exSeed k, exSeed k, exSeed 0, exSeed 0, exSeed 0⟩

example : (∀ k, (exSetupIn k).Sized) ∧ (List.replicate 128 (0 : Byte)).length = 128 ∧ (List.replicate 128 (1 : Byte)).length = 128 ∧
    commonSeed (List.replicate 128 0) ≠ commonSeed (List.replicate 128 1) := by
  refine ⟨fun k => ?_, by simp, by simp, by decide +kernel⟩
  simp [SetupIn.Sized, exSetupIn, exSeed]

example : 7#16 + (exPrg.gen 16 (exPrg.ofSeed (xor3 (exSetupIn 0).s2 (exSetupIn 1).s2 (commonSeed (List.replicate 128 0))))).1 -
    (exPrg.gen 16 (exPrg.ofSeed (xor3 (exSetupIn 0).s2 (exSetupIn 1).s2 (commonSeed (List.replicate 128 1))))).1 ≠ 7#16 := by
  simp only [exPrg, exSetupIn, exSeed]
  decide +kernel

/-- Runs of the honest parties as in `C82_setup`: the corrupt party may just follow the protocol. -/
example (p : Party → S3Prf exPrg) : ∃ rcvd sent out, HonestViews (fun k => setupPrfFromSeed exHash k (exSetupIn k).s0 (exSetupIn k).s1
    (exSetupIn k).s2 (exSetupIn k).r0 (exSetupIn k).r1 (exSetupIn k).r2 (Swift3.new (p k) : S3St exPrg 16)) 2 rcvd sent out := by
  obtain ⟨rcvd, sent, out, -, -, hv⟩ := honest_views (setup_wp (H := exHash) (G := exPrg) (K := 16) (fun k => (exSetupIn k).s0) (fun k => (exSetupIn k).s1)
    (fun k => (exSetupIn k).s2) (fun k => (exSetupIn k).r0) (fun k => (exSetupIn k).r1) (fun k => (exSetupIn k).r2)
    (fun k => by simp [exSetupIn, exSeed]) (fun k => by simp [exSetupIn, exSeed]) (fun k => by simp [exSetupIn, exSeed])
    (fun k => by simp [exSetupIn, exSeed]) (fun k => by simp [exSetupIn, exSeed]) (fun k => by simp [exSetupIn, exSeed])
    fun k => Swift3.new (p k))
  exact ⟨rcvd, sent, _, hv 2⟩

end Verif
