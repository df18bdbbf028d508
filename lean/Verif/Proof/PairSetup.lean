import Verif.Proof.Swift3Setup
import Verif.Proof.MalAby3Iris
import Verif.Proof.PairExec
import Verif.Proof.PairRuns
import Verif.Proof.Spdz

/-! # Set-up of malicious ABY3 and SPDZ-wise with a corrupt party; the mask check of one party -/

namespace Verif

theorem ite_app {σ α : Type} {c : Prop} [Decidable c] (p q : Proto σ α) (s : σ) :
    (if c then p else q) s = if c then p s else q s := by split <;> rfl

namespace MalAby3

variable {G : Prg} {H : Hash}

theorem verifyComm_eq (a c : Bytes) : (verifyCommitment H (a.take 32) (a.drop 32) c = false) = (c ≠ H.h a) := by
  simp [verifyCommitment, CommitOpening.verify, Swift3.bytes8, List.take_append_drop]

/-- `setup_prf_from_seed`, with the messages spelled out. -/
def setupProg (H : Hash) (me : Party) (s1 s2 r1 r2 : Bytes) (s : JmpSt G) : Prog (Unit × JmpSt G) :=
  .send me.next (H.h (s1 ++ r1)) (.send me.prev (H.h (s2 ++ r2)) (.recv me.next fun c => .recv me.prev fun d =>
    if c.length ≠ 64 ∨ d.length ≠ 64 then .fail .invalidMessageSize
    else .send me.next (s1 ++ r1) (.send me.prev (s2 ++ r2) (.recv me.next fun a => .recv me.prev fun b =>
      if a.length ≠ 64 ∨ b.length ≠ 64 then .fail .invalidMessageSize
      else if c ≠ H.h a then .fail (.invalidCommitment ((me.val + 1) % 3))
      else if d ≠ H.h b then .fail (.invalidCommitment ((me.val + 2) % 3))
      else .ret ((), { s with prf := Prf.new (Swift3.xor2 s1 (a.take 32)) (Swift3.xor2 s2 (b.take 32)) })))))

theorem setup_eq (me : Party) (s1 s2 r1 r2 : Bytes) (h1 : s1.length = 32) (s : JmpSt G) :
    setupPrfFromSeed H me s1 s2 r1 r2 s = setupProg H me s1 s2 r1 r2 s := by
  unfold setupPrfFromSeed setupProg sendSeedOpening
  have hc : Commitment.commSize = 64 := rfl
  have hr : Commitment.randSize = 32 := rfl
  have n2 : 32 + 32 = 64 := rfl
  proto_norm [sendNext, sendPrev, recvNext, recvPrev, h1, hc, hr, n2, verifyComm_eq, Commitment.commit, Commitment.opening, Swift3.bytes8, ite_app,
    Swift3.zip_xor2]

theorem setup_p2 (i : Party) (a1 a2 b1 b2 a1' a2' b1' b2' : Bytes) (h1 : a1.length = 32) (h1' : a1'.length = 32)
    (h2' : a2'.length = 32) (s s' : JmpSt G) :
    P2 i (setupPrfFromSeed H i a1 a2 b1 b2 s) (setupPrfFromSeed H i.next a1' a2' b1' b2' s') [] [] fun r r' a b =>
      ∃ cm op cm' op', r i.prev = [cm, op] ∧ r' i.prev = [cm', op'] ∧
      (op.length = 64 ∧ cm = H.h op) ∧ (op'.length = 64 ∧ cm' = H.h op') ∧
      a.2 = { s with prf := .new (Swift3.xor2 a1 a2') (Swift3.xor2 a2 (op.take 32)) } ∧
      b.2 = { s' with prf := .new (Swift3.xor2 a1' (op'.take 32)) (Swift3.xor2 a1 a2') } := by
  rw [setup_eq _ _ _ _ _ h1, setup_eq _ _ _ _ _ h1']
  have nn : i.next.next = i.prev := (by decide : ∀ i : Party, i.next.next = i.prev) i
  have t1 : (a1 ++ b1).take 32 = a1 := List.take_left' h1
  have t2 : (a2' ++ b2').take 32 = a2' := List.take_left' h2'
  unfold setupProg
  rcases (by decide : ∀ i : Party, i = 0 ∨ i = 1 ∨ i = 2) i with rfl | rfl | rfl
  all_goals
    simp only [Party.next_zero, Party.next_one, Party.next_two, Party.prev_zero, Party.prev_one, Party.prev_two]
    run2
    rename_i cm cm' g1 g2 op op' g3 g4 g5 g6 g7 g8
    simp only [not_or, ne_eq, not_not] at g3 g5 g6 g7
    rw [t1, t2, Swift3.xor2_comm a2']
    exact P2.done ⟨cm, op, cm', op', rfl, rfl, ⟨g3.2, g5⟩, ⟨g6.1, g7⟩, rfl, rfl⟩

end MalAby3

namespace Spdz

variable {G : Prg} {V : Nat}

theorem setup_p2 (i : Party) (a a' : Bytes) (k k' : SShare V) (h1 : a.length = 32) (s s' : SpdzSt G V) :
    P2 i ((preprocess i a >>= fun _ => setMacKey k) s) ((preprocess i.next a' >>= fun _ => setMacKey k') s') [] []
      fun r r' x y => ∃ sd, r i.prev = [sd] ∧ r' i.prev = [] ∧ sd.length = 32 ∧
      x.2 = { s with jmp := { s.jmp with prf := .new a sd }, macKey := k.mac } ∧
      y.2 = { s' with jmp := { s'.jmp with prf := .new a' a }, macKey := k'.mac } := by
  unfold preprocess Aby3.preprocess Aby3.setupPrfFromSeed setMacKey viaAby viaJmp Jmp.viaPrf bytesToSeed sendAndReceive
  rcases (by decide : ∀ i : Party, i = 0 ∨ i = 1 ∨ i = 2) i with rfl | rfl | rfl
  all_goals
    proto_norm [Proto.zoom, Proto.lift, Prog.bind_assoc', h1]
    run2
    rename_i m m' g1 w g2
    rw [if_neg (by rw [h1]; simp)] at g2
    obtain rfl := Except.ok.inj g2
    split at g1
    · cases g1
    next g =>
    obtain rfl := Except.ok.inj g1
    exact P2.done ⟨m, rfl, rfl, not_not.1 g, rfl, rfl⟩

end Spdz

/-! ## The mask check -/

section

variable {σ A B : Type} {K : Nat}

theorem Local.lift_ok {α : Type} {x : Except Err α} {s : σ} {r t : Party → List Bytes} {o : α × σ}
    (h : Local ((Proto.lift x : Proto σ α) s) r t (.ret o)) : x = .ok o.1 ∧ o.2 = s := by
  cases x with
  | error e => obtain ⟨-, -, h⟩ := Local.fail_inv h; cases h
  | ok a =>
    obtain ⟨-, -, h⟩ := Local.ret_inv h
    injection h with h
    rw [h]
    exact ⟨rfl, rfl⟩

theorem Local.bindS {α β : Type} {p : Proto σ α} {k : α → Proto σ β} {s : σ} {r t : Party → List Bytes} {o : β × σ}
    (h : Local ((p >>= k) s) r t (.ret o)) :
    ∃ (x : α × σ) (r1 t1 r2 t2 : Party → List Bytes), Local (p s) r1 t1 (.ret x) ∧ Local (k x.1 x.2) r2 t2 (.ret o) := by
  obtain ⟨x, r1, t1, r2, t2, h1, h2, -, -⟩ := Local.bind_ret h
  exact ⟨x, r1, t1, r2, t2, h1, h2⟩

theorem chunkLoop_masks (o : MpcOps σ A B K) (a : List A) (q : IrisCode) (css : List (List IrisCode)) :
    ∀ (bs : List (List (List A))) (_ : bs.length = css.length) (s : σ) (r t : Party → List Bytes) (x : List B × σ),
    Local (Iris.chunkLoop o a q.mask (bs.zip (css.map fun cs => cs.map fun c => c.mask)) s) r t (.ret x) →
    ∀ cs ∈ css, ∀ c ∈ cs, 8960 ≤ commonBits q c := by
  induction css with
  | nil => simp
  | cons cs css ih =>
    intro bs hl s r t x h
    cases bs with
    | nil => simp at hl
    | cons b bs =>
      simp only [List.map_cons, List.zip_cons_cons, Iris.chunkLoop] at h
      obtain ⟨x1, r1, t1, r2, t2, h1, h2⟩ := Local.bindS h
      obtain ⟨x2, r3, t3, -, -, h3, -⟩ := Local.bindS h2
      have key : ∀ c ∈ cs, 8960 ≤ commonBits q c := by
        by_contra hc
        push Not at hc
        unfold Iris.compareIrisMany at h1
        rw [ite_app] at h1
        split at h1
        · obtain ⟨-, -, e⟩ := Local.fail_inv h1; cases e
        obtain ⟨x4, r4, t4, -, -, h4, -⟩ := Local.bindS h1
        have := (Local.lift_ok h4).1
        rw [MpcLawful.combineAll_error q cs hc] at this
        cases this
      intro cs' hcs'
      rcases List.mem_cons.1 hcs' with rfl | hcs'
      · exact key
      · exact ih bs (by simpa using hl) _ _ _ _ h3 cs' hcs'

/-- A party that finishes a query has compared only codes with enough common valid positions. -/
theorem irisInDb_masks (o : MpcOps σ A B K) (a : List A) (b : List (List A)) (q : IrisCode) (db : List IrisCode) (cs : Nat)
    {s : σ} {r t : Party → List Bytes} {x : Bool × σ}
    (h : Local (Iris.irisInDb o a b q.mask (db.map fun c => c.mask) cs s) r t (.ret x)) :
    ∀ c ∈ db, 8960 ≤ commonBits c q := by
  unfold Iris.irisInDb at h
  rw [ite_app] at h
  split at h
  · obtain ⟨-, -, e⟩ := Local.fail_inv h; cases e
  next hl =>
  simp only [List.length_map, not_or, ne_eq, not_not] at hl
  obtain ⟨_, _, _, _, _, _, h⟩ := Local.bindS h
  obtain ⟨_, _, _, _, _, _, h⟩ := Local.bindS h
  obtain ⟨x1, _, _, _, _, h1, h⟩ := Local.bindS h
  obtain ⟨x2, _, _, _, _, h2, h⟩ := Local.bindS h
  obtain ⟨x3, r3, t3, _, _, h3, _⟩ := Local.bindS h
  have e1 := (Local.lift_ok h1).1
  have e2 := (Local.lift_ok h2).1
  unfold chunksE at e1 e2
  split at e1
  · cases e1
  next hcs =>
  rw [if_neg hcs] at e2
  have e1 := (Except.ok.inj e1).symm
  have e2 := (Except.ok.inj e2).symm
  rw [e1, e2, MpcLawful.chunksOf_map'] at h3
  intro c hc
  rw [← chunksOf_flatten hcs db] at hc
  obtain ⟨l, hl', hcl⟩ := List.mem_flatten.1 hc
  rw [MpcLawful.commonBits_comm]
  refine chunkLoop_masks o a q (chunksOf cs db) (chunksOf cs b) ?_ _ _ _ _ h3 l hl' c hcl
  rw [chunksOf_length hcs, chunksOf_length hcs, hl.1]

end

end Verif
