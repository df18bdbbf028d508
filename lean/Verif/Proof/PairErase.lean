import Verif.Proof.PairCallsQuery

/-!
The list of calls kept by `logOps` influences nothing.
-/

namespace Verif

namespace MalAby3

open Jmp

variable {G : Prg} {K : Nat} {H : Hash} {α β : Type}

/-- `p'` does the same as `p`, whatever the list, and adds calls to the list that account for all messages received. -/
structure Erases (p' : Proto (LogSt G K) α) (p : Proto (JmpSt G) α) : Prop where
  erase : ∀ s l, (p' (s, l) >>= fun o => Prog.ret (o.1, o.2.1)) = p s
  account : ∀ {s l r t o}, Local (p' (s, l)) r t (.ret o) →
    ∃ new, o.2.2 = l ++ new ∧ ∀ d, r d = new.flatMap fun c => c.rcvd d

theorem record_map (p : Prog α) : (p.withRcvd >>= fun o => Prog.ret o.1) = p := by
  induction p with
  | ret a => rfl
  | fail e => rfl
  | send d m k ih =>
    show Prog.send d m (k.withRcvd >>= fun o => Prog.ret o.1) = _
    rw [ih]
  | recv j k ih =>
    show Prog.recv j (fun m => ((k m).withRcvd >>= fun o => Prog.ret (o.1, push j m o.2)) >>= fun o => Prog.ret o.1) = _
    congr 1
    funext m
    rw [bind_assoc]
    exact ih m

theorem record_rcvd {p : Prog α} {r t : Party → List Bytes} {o : α × (Party → List Bytes)}
    (h : Local p.withRcvd r t (.ret o)) : o.2 = r := by
  induction p generalizing r t o with
  | ret a => obtain ⟨rfl, -, e⟩ := Local.ret_inv h; cases e; rfl
  | fail e => obtain ⟨-, -, e⟩ := Local.fail_inv h; cases e
  | send d m k ih =>
    obtain ⟨t', rfl, h'⟩ := Local.send_ret h
    exact ih h'
  | recv j k ih =>
    obtain ⟨m, r', rfl, h'⟩ := Local.recv_ret h
    obtain ⟨o1, r1, t1, r2, t2, h1, h2, rfl, rfl⟩ := Local.bind_ret h'
    obtain ⟨rfl, -, e⟩ := Local.ret_inv h2
    cases e
    rw [ih m h1]
    simp

namespace Erases

theorem quiet {p' : Proto (LogSt G K) α} {p : Proto (JmpSt G) α} (h : ∀ s l, (∃ a, p' (s, l) = .ret (a, s, l) ∧ p s = .ret (a, s)) ∨
    ∃ e, p' (s, l) = .fail e ∧ p s = .fail e) : Erases p' p where
  erase s l := by
    rcases h s l with ⟨a, e1, e2⟩ | ⟨a, e1, e2⟩ <;> rw [e1, e2] <;> rfl
  account {s l r t o} hl := by
    rcases h s l with ⟨a, e1, e2⟩ | ⟨a, e1, e2⟩
    · rw [e1] at hl
      obtain ⟨rfl, -, e⟩ := Local.ret_inv hl
      cases e
      exact ⟨[], by simp, fun _ => rfl⟩
    · rw [e1] at hl
      obtain ⟨-, -, e⟩ := Local.fail_inv hl
      cases e

theorem pure (a : α) : Erases (G := G) (K := K) (Pure.pure a) (Pure.pure a) := quiet fun _ _ => .inl ⟨a, rfl, rfl⟩

theorem throw (e : Err) : Erases (G := G) (K := K) (α := α) (Proto.throw e) (Proto.throw e) :=
  quiet fun _ _ => .inr ⟨e, rfl, rfl⟩

theorem lift (r : Except Err α) : Erases (G := G) (K := K) (Proto.lift r) (Proto.lift r) := quiet fun _ _ => by
  cases r with
  | error e => exact .inr ⟨e, rfl, rfl⟩
  | ok a => exact .inl ⟨a, rfl, rfl⟩

theorem bind {p' : Proto (LogSt G K) α} {p : Proto (JmpSt G) α} {k' : α → Proto (LogSt G K) β} {k : α → Proto (JmpSt G) β}
    (h : Erases p' p) (hk : ∀ a, Erases (k' a) (k a)) : Erases (p' >>= k') (p >>= k) where
  erase s l := by
    show ((p' (s, l) >>= fun o => k' o.1 o.2) >>= fun o => Prog.ret (o.1, o.2.1)) = (p s >>= fun o => k o.1 o.2)
    rw [← h.erase s l, bind_assoc, bind_assoc]
    congr 1
    funext o
    exact (hk o.1).erase o.2.1 o.2.2
  account {s l r t o} hl := by
    change Local (p' (s, l) >>= fun o => k' o.1 o.2) r t (.ret o) at hl
    obtain ⟨⟨a, s1, l1⟩, r1, t1, r2, t2, h1, h2, rfl, rfl⟩ := Local.bind_ret hl
    obtain ⟨n1, e1, q1⟩ := h.account h1
    obtain ⟨n2, e2, q2⟩ := (hk a).account h2
    refine ⟨n1 ++ n2, ?_, fun d => ?_⟩
    · rw [e2]
      show l1 ++ n2 = _
      rw [show l1 = l ++ n1 from e1, List.append_assoc]
    · rw [List.flatMap_append, ← q1, ← q2]

theorem ite {c : Prop} [Decidable c] {p' q' : Proto (LogSt G K) α} {p q : Proto (JmpSt G) α} (h : Erases p' p)
    (hq : Erases q' q) : Erases (if c then p' else q') (if c then p else q) := by
  split <;> assumption

theorem logged {kind : Kind K} (p : Proto (JmpSt G) α) : Erases (MalAby3.logged kind p) p where
  erase s l := by
    show (((p s).withRcvd >>= fun o => Prog.ret (o.1.1, o.1.2, l ++ [⟨kind, s, o.2⟩])) >>= fun o => Prog.ret (o.1, o.2.1)) = _
    rw [bind_assoc]
    exact record_map (p s)
  account {s l r t o} hl := by
    change Local ((p s).withRcvd >>= fun o => Prog.ret (o.1.1, o.1.2, l ++ [⟨kind, s, o.2⟩])) r t (.ret o) at hl
    obtain ⟨o1, r1, t1, r2, t2, h1, h2, rfl, rfl⟩ := Local.bind_ret hl
    obtain ⟨rfl, -, e⟩ := Local.ret_inv h2
    cases e
    refine ⟨_, rfl, fun d => ?_⟩
    rw [record_rcvd h1]
    simp

variable {L : Nat} {me : Party}

theorem andMany (a b : List (AShare L)) :
    Erases ((logBinOps G K H L me).andMany a b) ((binOps G H L me).andMany a b) := logged _

theorem orMany (a b : List (AShare L)) :
    Erases ((logBinOps G K H L me).orMany a b) ((binOps G H L me).orMany a b) := by
  unfold BinOps.orMany
  refine ite (throw _) (bind (andMany _ _) fun y => bind (lift _) fun x => lift _)

theorem orChunks : ∀ cs : List (List (AShare L) × List (AShare L)),
    Erases ((logBinOps G K H L me).orChunks cs) ((binOps G H L me).orChunks cs)
  | [] => pure _
  | (a, b) :: cs => bind (orMany a b) fun _ => bind (orChunks cs) fun _ => pure _

theorem orTreeLoop (chunkSize num : Nat) (inputs : List (AShare L)) :
    Erases ((logBinOps G K H L me).orTreeLoop chunkSize num inputs) ((binOps G H L me).orTreeLoop chunkSize num inputs) := by
  induction num using Nat.strong_induction_on generalizing inputs with
  | _ num ih =>
    unfold BinOps.orTreeLoop
    split
    · next h =>
      refine ite (throw _) (bind (lift _) fun ca => bind (lift _) fun cb => bind (orChunks _) fun res => ?_)
      exact ih _ (by omega) _
    · exact pure _

theorem orTree (chunkSize : Nat) (inputs : List (AShare L)) :
    Erases ((logBinOps G K H L me).orTree chunkSize inputs) ((binOps G H L me).orTree chunkSize inputs) :=
  bind (orTreeLoop _ _ _) fun _ => lift _

theorem koggeLoopMany (len n j : Nat) (p g : List (AShare L)) :
    Erases ((logBinOps G K H L me).koggeLoopMany len n j p g) ((binOps G H L me).koggeLoopMany len n j p g) := by
  induction n generalizing j p g with
  | zero => exact pure _
  | succ n ih => exact bind (andMany _ _) fun res => bind (lift _) fun g => ih _ _ _

theorem binaryAdd3Many (n : Nat) (x1 x2 x3 : List (AShare L)) :
    Erases ((logBinOps G K H L me).binaryAdd3Many n x1 x2 x3) ((binOps G H L me).binaryAdd3Many n x1 x2 x3) := by
  unfold BinOps.binaryAdd3Many
  exact ite (throw _) (bind (lift _) fun _ => bind (lift _) fun _ => bind (lift _) fun _ => bind (andMany _ _) fun _ =>
    bind (lift _) fun _ => bind (lift _) fun _ => bind (andMany _ _) fun _ => bind (koggeLoopMany _ _ _ _ _) fun _ => lift _)

variable {sg : Bool}

theorem hammingLoop (a : List (AShare K)) : ∀ l : List ((List (AShare K) × AShare K) × IrisCodeArray),
    Iris.hammingLoop (logOps G H K sg me) a l = Iris.hammingLoop (ops G H K sg me) a l
  | [] => rfl
  | ((b, dot), mask) :: rest => by
    unfold Iris.hammingLoop
    rw [hammingLoop a rest]
    rfl

theorem diffLoop (s : LogSt G K) (s' : JmpSt G) : ∀ l : List (AShare K × Nat),
    Iris.diffLoop (logOps G H K sg me) s l = Iris.diffLoop (ops G H K sg me) s' l
  | [] => rfl
  | (h, n) :: rest => by
    unfold Iris.diffLoop
    rw [diffLoop s s' rest]
    rfl

theorem hammingMany (a : List (AShare K)) (b : List (List (AShare K))) (masks : List IrisCodeArray) :
    Erases (Iris.hammingMany (logOps G H K sg me) a b masks) (Iris.hammingMany (ops G H K sg me) a b masks) := by
  refine bind (p' := (logOps G H K sg me).maskedDotMany a b masks) (p := (ops G H K sg me).maskedDotMany a b masks)
    (bind (lift _) fun v => logged _) fun dots => ?_
  rw [hammingLoop]
  exact lift _

theorem getMsbMany (a : List (AShare K)) :
    Erases ((logOps G H K sg me).getMsbMany a) ((ops G H K sg me).getMsbMany a) :=
  bind (binaryAdd3Many _ _ _ _) fun _ => pure _

theorem compareThresholdMany (h : List (AShare K)) (n : List Nat) :
    Erases (Iris.compareThresholdMany (logOps G H K sg me) h n) (Iris.compareThresholdMany (ops G H K sg me) h n) := by
  unfold Iris.compareThresholdMany
  refine ite (throw _) ?_
  have key : ∀ s : JmpSt G, Erases (Proto.lift (Iris.diffLoop (ops G H K sg me) s (h.zip n)) >>= (logOps G H K sg me).getMsbMany)
      (Proto.lift (Iris.diffLoop (ops G H K sg me) s (h.zip n)) >>= (ops G H K sg me).getMsbMany) := fun s =>
    bind (lift _) fun d => getMsbMany d
  have e : ∀ s l, (get >>= fun st => Proto.lift (Iris.diffLoop (logOps G H K sg me) st (h.zip n)) >>= fun d =>
      (logOps G H K sg me).getMsbMany d : Proto (LogSt G K) _) (s, l) =
      (Proto.lift (Iris.diffLoop (ops G H K sg me) s (h.zip n)) >>= (logOps G H K sg me).getMsbMany) (s, l) := fun s l => by
    rw [← diffLoop (s, l) s (h.zip n)]
    rfl
  refine ⟨fun s l => ?_, fun {s l r t o} hl => ?_⟩
  · exact (congrArg (· >>= fun o => Prog.ret (o.1, o.2.1)) (e s l)).trans ((key s).erase s l)
  · exact (key s).account (e s l ▸ hl)

theorem compareIrisMany (a : List (AShare K)) (b : List (List (AShare K))) (mask : IrisCodeArray) (masks : List IrisCodeArray) :
    Erases (Iris.compareIrisMany (logOps G H K sg me) a b mask masks) (Iris.compareIrisMany (ops G H K sg me) a b mask masks) := by
  unfold Iris.compareIrisMany
  exact ite (throw _) (bind (lift _) fun m => bind (hammingMany _ _ _) fun h => compareThresholdMany _ _)

theorem chunkLoop (a : List (AShare K)) (mask : IrisCodeArray) : ∀ l : List (List (List (AShare K)) × List IrisCodeArray),
    Erases (Iris.chunkLoop (logOps G H K sg me) a mask l) (Iris.chunkLoop (ops G H K sg me) a mask l)
  | [] => pure _
  | (db, masks) :: rest => bind (compareIrisMany _ _ _ _) fun _ => bind (chunkLoop a mask rest) fun _ => pure _

theorem irisInDb (a : List (AShare K)) (b : List (List (AShare K))) (mask : IrisCodeArray) (masks : List IrisCodeArray) (cs : Nat) :
    Erases (Iris.irisInDb (logOps G H K sg me) a b mask masks cs) (Iris.irisInDb (ops G H K sg me) a b mask masks cs) := by
  unfold Iris.irisInDb
  refine ite (throw _) (bind (lift _) fun _ => bind (pure ()) fun _ => bind (lift _) fun _ => bind (lift _) fun _ =>
    bind (chunkLoop _ _ _) fun _ => bind (bind (lift _) fun _ => orTree _ _) fun _ => bind (quiet fun _ _ => .inl ⟨(), rfl, rfl⟩) fun _ => logged _)

end Erases

end MalAby3

end Verif
