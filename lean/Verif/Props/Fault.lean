import Verif.Proof.Fault
import Verif.Props.Capacity
import Verif.Props.Iris

/-! # C70: crashes, loss of connections and closing of connections at the end

Safety: an answer given by any party in an execution with faults is the answer of the run without faults. Liveness: nobody
waits for ever. And: the way connections are closed at the end can make a party fail although nothing went wrong. -/

namespace Verif

attribute [local irreducible] hammingDistance commonBits encode

open Function

variable {α : Type} {G : Prg} {K : Nat}

theorem AllSchedules.run {p : Party → Prog α} {r : Party → α} (h : AllSchedules p r) :
    ∃ n, StepsN n (Config.init p) ⟨fun i => .ret (r i), fun _ _ => []⟩ := by
  obtain ⟨n, t, hn, ht⟩ := exists_stuck (Config.init p)
  obtain ⟨h1, h2⟩ := h.2 n t hn ht
  refine ⟨n, ?_⟩
  rwa [show (⟨fun i => .ret (r i), fun _ _ => []⟩ : Config α) = t from
    Config.ext (funext fun i => (h1 i).symm) (funext fun s => funext fun d => (h2 s d).symm)]

theorem AllSchedulesWithin.run {cap : Party → Party → Nat} {p : Party → Prog α} {r : Party → α} (h : AllSchedulesWithin cap p r) :
    ∃ n, BStepsN cap n (Config.init p) ⟨fun i => .ret (r i), fun _ _ => []⟩ := by
  obtain ⟨N, hN⟩ := h.1
  have ex : ∀ (m n : Nat) (c : Config α), BStepsN cap n (Config.init p) c → N - n = m →
      ∃ n' t, BStepsN cap n' (Config.init p) t ∧ ∀ i c', ¬ BStep cap i t c' := by
    intro m
    induction m with
    | zero =>
      intro n c hc hm
      refine ⟨n, c, hc, fun i c' hs => ?_⟩
      have := hN _ _ (hc.trans (.succ i hs (.zero _)))
      omega
    | succ m ih =>
      intro n c hc hm
      by_cases h : ∃ i c', BStep cap i c c'
      · obtain ⟨i, c', hs⟩ := h
        exact ih (n + 1) c' (hc.trans (.succ i hs (.zero _))) (by omega)
      · push Not at h
        exact ⟨n, c, hc, h⟩
  obtain ⟨n, t, hn, ht⟩ := ex _ 0 _ (.zero _) rfl
  obtain ⟨h1, h2⟩ := h.2 n t hn ht
  refine ⟨n, ?_⟩
  rwa [show (⟨fun i => .ret (r i), fun _ _ => []⟩ : Config α) = t from
    Config.ext (funext fun i => (h1 i).symm) (funext fun s => funext fun d => (h2 s d).symm)]

/-- For all programs that complete without faults with the results `r`: whatever parties crash and connections break, and
when, a party that returns a result returns the right one, and the only error is that of a broken connection. -/
theorem C70_never_wrong (p : Party → Prog α) (r : Party → α) (h : AllSchedules p r) (cap : Party → Party → ℕ∞) (mode : Mode)
    (n : Nat) (f : FConfig α) (hf : FStepsN cap mode n (FConfig.init p) f) (i : Party) :
    (∀ a, f.prog i = .ret a → a = r i) ∧ ∀ e, f.prog i = .fail e → e = .io := by
  obtain ⟨N, hN⟩ := h.run
  obtain ⟨k, c, hk, hsim, -⟩ := Sim.reach hN hf
  refine ⟨fun a ha => ?_, fun e he => ?_⟩
  · have hc : c.prog i = .ret a := by
      rcases hsim.prog i with h | h
      · rw [← h, ha]
      · rw [ha] at h; cases h
    obtain ⟨m, -, hm⟩ := hN.confluent (Config.stuck_final r) hk
    have key : ∀ {m : Nat} {c d : Config α}, StepsN m c d → c.prog i = .ret a → d.prog i = .ret a := by
      intro m c d h hi
      induction h with
      | zero => exact hi
      | succ hs _ ih =>
        obtain ⟨j, hj⟩ := hs
        apply ih
        have hji : j ≠ i := by
          rintro rfl
          cases hj with
          | send h => rw [hi] at h; cases h
          | recv h _ => rw [hi] at h; cases h
        cases hj <;> simpa [update_of_ne hji.symm] using hi
    have := key hm hc
    cases this; rfl
  · rcases hsim.prog i with h | h
    · exact absurd (h ▸ he) (fine_of_run hN hk i e)
    · rw [he] at h; cases h; rfl

/-- Executions with faults end: their length is bounded. -/
theorem C70_terminates (p : Party → Prog α) (r : Party → α) (h : AllSchedules p r) :
    ∃ N, ∀ cap mode n (f : FConfig α), FStepsN cap mode n (FConfig.init p) f → n ≤ N := by
  obtain ⟨N, hN⟩ := h.1
  obtain ⟨M, hM⟩ := h.run
  refine ⟨N + 15, fun cap mode n f hf => ?_⟩
  obtain ⟨k, c, hk, -, hw⟩ := Sim.reach hM hf
  have := hN _ _ hk
  have := f.weight_le
  omega

/-- Nobody waits for ever: when nothing more happens, every party has crashed, has returned its result, or has reported the
loss of a connection. Channels may be limited to capacities for which the run without faults completes. -/
theorem C70_no_hang (p : Party → Prog α) (r : Party → α) (cap0 : Party → Party → Nat) (h : AllSchedulesWithin cap0 p r)
    (cap : Party → Party → ℕ∞) (hc : ∀ s d, (cap0 s d : ℕ∞) ≤ cap s d) (mode : Mode)
    (n : Nat) (f : FConfig α) (hf : FStepsN cap mode n (FConfig.init p) f) (hq : f.Quiet cap) (i : Party) :
    f.down i = true ∨ f.prog i = .ret (r i) ∨ f.prog i = .fail .io := by
  obtain ⟨N, hN⟩ := h.run
  have ha : AllSchedules p r := C01_one_run_suffices p r N hN.toSteps
  obtain ⟨T, hT⟩ := HRun.of_bsteps (.zero (p := p)) hN
  obtain ⟨h1, h2⟩ := C70_never_wrong p r ha cap mode n f hf i
  rcases quiet_stopped (hT.mono hc) hf hq i with h | ⟨a, h⟩ | ⟨e, h⟩
  · exact .inl h
  · exact .inr (.inl (h1 a h ▸ h))
  · exact .inr (.inr (h2 e h ▸ h))

/-- Without faults, and if a connection ends only when both its ends have stopped, everybody returns the result. -/
theorem C70_orderly (p : Party → Prog α) (r : Party → α) (cap0 : Party → Party → Nat) (h : AllSchedulesWithin cap0 p r)
    (cap : Party → Party → ℕ∞) (hc : ∀ s d, (cap0 s d : ℕ∞) ≤ cap s d) (n : Nat) (f : FConfig α)
    (hf : FStepsN cap .orderly n (FConfig.init p) f) :
    (∀ i e, f.prog i ≠ .fail e) ∧ ((∀ f', ¬ FStep cap .orderly f f') → ∀ i, f.prog i = .ret (r i)) := by
  obtain ⟨N, hN⟩ := h.run
  obtain ⟨T, hT⟩ := HRun.of_bsteps (.zero (p := p)) hN
  obtain ⟨-, -, k, c, hk, hp, -⟩ := orderly_reach hN.toSteps hf
  exact ⟨fun i e => hp ▸ fine_of_run hN.toSteps hk i e, fun hq i => orderly_done (hT.mono hc) hf hq i⟩

/-- All protocols about which `EverySchedule` is proved in this development, with faults. -/
theorem C70_protocols {σ : Type} (p : Party → Proto σ α) (st : Party → σ) (Q : (Party → α) → (Party → σ) → Prop)
    (h : EverySchedule p st Q) :
    ∃ a st', Q a st' ∧ ∀ cap : Party → Party → ℕ∞, (∀ s d, 2 ≤ cap s d) → ∀ mode n (f : FConfig (α × σ)),
      FStepsN cap mode n (FConfig.init fun i => p i (st i)) f →
      (∀ i x, f.prog i = .ret x → x = (a i, st' i)) ∧ (∀ i e, f.prog i = .fail e → e = .io) ∧
      (f.Quiet cap → ∀ i, f.down i = true ∨ f.prog i = .ret (a i, st' i) ∨ f.prog i = .fail .io) := by
  obtain ⟨a, st', ⟨h1, h2⟩, hQ⟩ := h
  refine ⟨a, st', hQ, fun cap hcap mode n f hf => ⟨fun i => ?_, fun i => ?_, fun hq i => ?_⟩⟩
  · exact (C70_never_wrong _ _ h1 cap mode n f hf i).1
  · exact (C70_never_wrong _ _ h1 cap mode n f hf i).2
  · exact C70_no_hang _ (fun i => (a i, st' i)) (fun _ _ => 2) (h2 _ fun _ _ => le_rfl) cap hcap mode n f hf hq i

/-- The query over ABY3: whatever crashes and breaks, nobody outputs a wrong answer, and nobody waits for ever. -/
theorem C70_aby3_query (hK : 15 ≤ K) (signed : Bool) (q : IrisCode) (db : List IrisCode) (hne : db ≠ [])
    (hm : ∀ c ∈ db, 8960 ≤ commonBits c q) (a : Party → List (AShare K)) (b : Party → List (List (AShare K)))
    (ha : Rels SharesOf (encode K q.code) a) (hb : Rels (Rels SharesOf) (db.map fun c => encode K c.code) b)
    (cs : Nat) (hcs : cs ≠ 0) (hov : (db.length + cs) * (2 * K) < 2 ^ 64) (st : Party → Aby3St G) (hst : Aby3Ready st)
    (cap : Party → Party → ℕ∞) (hcap : ∀ s d, 2 ≤ cap s d) (mode : Mode) (n : Nat) (f : FConfig (Bool × Aby3St G))
    (hf : FStepsN cap mode n (FConfig.init fun i =>
      Iris.irisInDb (Aby3.ops G K signed i) (a i) (b i) q.mask (db.map fun c => c.mask) cs (st i)) f) :
    (∀ i x s, f.prog i = .ret (x, s) → x = inDb q db) ∧
    (f.Quiet cap → ∀ i, f.down i = true ∨ (∃ s, f.prog i = .ret (inDb q db, s)) ∨ f.prog i = .fail .io) := by
  obtain ⟨r, st', ⟨hr, -⟩, h⟩ := C70_protocols _ _ _ (C14_iris_in_db hK signed q db hne hm a b ha hb cs hcs hov st hst)
  obtain ⟨h1, -, h3⟩ := h cap hcap mode n f hf
  refine ⟨fun i x s hi => ?_, fun hq i => ?_⟩
  · have := h1 i _ hi
    rw [Prod.mk.injEq, hr i] at this
    exact this.1
  · rcases h3 hq i with h | h | h
    · exact .inl h
    · exact .inr (.inl ⟨_, hr i ▸ h⟩)
    · exact .inr (.inr h)

/-! ## Closing connections at once -/

/-- A program that ends with an exchange around the ring: after the exchange before, `q`, party `j` fails because its
predecessor, which has finished, closes the connection. -/
theorem last_exchange_race {β : Type} (q : Party → Prog β) (b : Party → β) (hq : Runs q b) (F : Party → β → Prog α)
    (m : Party → Bytes) (k : Party → Bytes → Prog α) (r : Party → α)
    (hF : ∀ i, F i (b i) = .send i.next (m i) (.recv i.prev (k i))) (hk : ∀ i, k i (m i.prev) = .ret (r i))
    (cap : Party → Party → ℕ∞) (hcap : ∀ s d, 2 ≤ cap s d) (j : Party) :
    ∃ n f, FStepsN cap .abrupt n (FConfig.init fun i => q i >>= F i) f ∧ (∀ i, f.down i = false) ∧
      (∀ i, i ≠ j → f.prog i = .ret (r i)) ∧ f.prog j = .fail .io := by
  obtain ⟨n, hn⟩ := hq
  have h0 := FStepsN.of_bsteps (cap' := cap) (mode := .abrupt) hcap (hn.bind F)
  have e : (⟨fun i => (Config.final b).prog i >>= F i, (Config.final b).chan⟩ : Config α) =
      Config.init (fun i => .send i.next (m i) (.recv i.prev (k i))) := by
    apply Config.ext
    · funext i; exact hF i
    · rfl
  rw [e] at h0
  have pos : ∀ s d, ((([] : List Bytes).length : Nat) : ℕ∞) < cap s d := fun s d =>
    lt_of_lt_of_le (by norm_num) (hcap s d)
  obtain ⟨n1, n2, n3, e1, e2, e3, e4⟩ : j.prev ≠ j ∧ j.next ≠ j ∧ j.next ≠ j.prev ∧ j.prev.next = j ∧ j.prev.prev = j.next ∧
    j.next.next = j.prev ∧ j.next.prev = j := by decide +revert
  have s1 := FStepsN.succ h0 (.send (i := j.prev) (d := j) (m := m j.prev) (k := .recv j.prev.prev (k j.prev)) rfl
    (by simp [FConfig.of, Config.init, e1]) rfl (by simpa [FConfig.of, Config.init] using pos _ _))
  have s2 := FStepsN.succ s1 (.send (i := j) (d := j.next) (m := m j) (k := .recv j.prev (k j)) rfl
    (by simp [FConfig.of, Config.init, update_of_ne n1.symm]) rfl
    (by simpa [FConfig.of, Config.init, setChan, n2] using pos _ _))
  have s3 := FStepsN.succ s2 (.send (i := j.next) (d := j.prev) (m := m j.next) (k := .recv j.next.prev (k j.next)) rfl
    (by simp [FConfig.of, Config.init, update_of_ne n3, update_of_ne n2, e3]) rfl
    (by simpa [FConfig.of, Config.init, setChan, n2, n3] using pos _ _))
  have s4 := FStepsN.succ s3 (.recv (i := j.prev) (s := j.next) (m := m j.next) (k := k j.prev) (rest := []) rfl
    (by simp [update_of_ne n3.symm, update_of_ne n1, e2])
    (by simp [FConfig.of, Config.init, setChan, n2, n3]))
  have s5 := FStepsN.succ s4 (.recv (i := j.next) (s := j) (m := m j) (k := k j.next) (rest := []) rfl
    (by simp [update_of_ne n3, e4])
    (by simp [FConfig.of, Config.init, setChan, n2, n2.symm, n3, n1.symm]))
  have r1 : k j.prev (m j.next) = .ret (r j.prev) := by rw [← e2]; exact hk _
  have r2 : k j.next (m j) = .ret (r j.next) := by have := hk j.next; rwa [e4] at this
  have s6 := FStepsN.succ s5 (.close (s := j.prev) (d := j) 0 rfl
    (.inl (.inr (.inl ⟨r j.prev, by simp [update_of_ne n3.symm, r1]⟩))) (by simp))
  have s7 := FStepsN.succ s6 (.recvClosed (i := j) (s := j.prev) (k := k j) rfl
    (by simp [update_of_ne n2.symm, update_of_ne n1.symm]) (by simp) (by simp [setClosed]))
  refine ⟨_, _, s7, fun i => rfl, fun i hi => ?_, by simp⟩
  have : i = j.prev ∨ i = j.next := (by decide : ∀ i j : Party, i ≠ j → i = j.prev ∨ i = j.next) i j hi
  rcases this with rfl | rfl
  · simp [update_of_ne n1, update_of_ne n3.symm, r1]
  · simp [update_of_ne n2, r2]

/-- The query over ABY3 with `finish` as it is: although nobody crashes and no connection breaks by itself, for every party there is an
execution in which the other two output the answer and this party fails, because its predecessor has received its own
last message and closes the connections while its last message is still under way. -/
theorem C70_aby3_query_may_fail (hK : 15 ≤ K) (signed : Bool) (q : IrisCode) (db : List IrisCode) (hne : db ≠ [])
    (hm : ∀ c ∈ db, 8960 ≤ commonBits c q) (a : Party → List (AShare K)) (b : Party → List (List (AShare K)))
    (ha : Rels SharesOf (encode K q.code) a) (hb : Rels (Rels SharesOf) (db.map fun c => encode K c.code) b)
    (cs : Nat) (hcs : cs ≠ 0) (hov : (db.length + cs) * (2 * K) < 2 ^ 64) (st : Party → Aby3St G) (hst : Aby3Ready st)
    (cap : Party → Party → ℕ∞) (hcap : ∀ s d, 2 ≤ cap s d) (j : Party) :
    ∃ n f, FStepsN cap .abrupt n (FConfig.init fun i =>
        Iris.irisInDb (Aby3.ops G K signed i) (a i) (b i) q.mask (db.map fun c => c.mask) cs (st i)) f ∧
      (∀ i, f.down i = false) ∧ (∀ i, i ≠ j → ∃ s, f.prog i = .ret (inDb q db, s)) ∧ f.prog j = .fail .io := by
  obtain ⟨c, hc, hrel, -⟩ := MpcLawful.queryBody_wp (Aby3.mpcLawful G (by omega) signed) hK le_rfl ha hne hm hb hcs trivial
    hov hst
  have hbit : ∀ b : Bool, bitVal (bitOf b) = b := by decide
  obtain ⟨n, f, h1, h2, h3, h4⟩ := last_exchange_race _ c hc
    (fun i x => (Aby3.openBit i x.1 : Proto (Aby3St G) Bool) x.2)
    (fun i => toBytes (c i).1.b)
    (fun i bs => (Prog.ofExcept (fromBytes 1 bs)) >>= fun z => .ret (bitVal ((c i).1.a ^^^ (c i).1.b ^^^ z), (c i).2))
    (fun i => (inDb q db, (c i).2))
    (fun i => congrArg (Prog.send _ _) (congrArg (Prog.recv _) (funext fun bs => by
      show (Prog.ofExcept (fromBytes 1 bs) >>= fun z => .ret (z, (c i).2)) >>= _ = _
      cases fromBytes 1 bs <;> rfl))) (fun i => by
      rw [fromBytes_toBytes, Prog.ofExcept_ok, Prog.ret_bind]
      rw [hrel.open_eq i, hbit]) cap hcap j
  refine ⟨n, f, ?_, h2, fun i hi => ⟨_, h3 i hi⟩, h4⟩
  convert h1 using 2
  funext i
  rw [MpcLawful.irisInDb_eq _ _ (by
    intro h
    have := hb.length (i := i)
    rw [h] at this
    simp at this
    exact hne (by simpa using this.symm)) _ _ (by rw [hb.length]; simp)]
  rfl

/-- The program of party `i` never receives from party `i`. -/
def Prog.NeverFrom (i : Party) : Prog α → Prop
  | .ret _ => True
  | .fail _ => True
  | .send _ _ k => k.NeverFrom i
  | .recv s k => s ≠ i ∧ ∀ m, (k m).NeverFrom i

theorem BStepsN.last {cap : Party → Party → Nat} {n : Nat} {a b : Config α} (h : BStepsN cap (n + 1) a b) :
    ∃ c i, BStepsN cap n a c ∧ BStep cap i c b := by
  induction n generalizing a with
  | zero =>
    cases h with
    | succ i hs t => cases t with | zero => exact ⟨a, i, .zero _, hs⟩
  | succ n ih =>
    cases h with
    | succ i hs t =>
      obtain ⟨c, j, hc, hj⟩ := ih t
      exact ⟨c, j, .succ i hs hc, hj⟩

theorem BStepsN.neverFrom {cap : Party → Party → Nat} {n : Nat} {a b : Config α} (h : BStepsN cap n a b)
    (ha : ∀ i, (a.prog i).NeverFrom i) (i : Party) : (b.prog i).NeverFrom i := by
  induction h with
  | zero => exact ha i
  | succ j hs _ ih =>
    apply ih
    intro x
    cases hs with
    | @send d m k hp _ =>
      by_cases hx : x = j
      · subst hx; have := ha x; rw [hp] at this; simpa [Prog.NeverFrom] using this
      · simpa [update_of_ne hx] using ha x
    | @recv s m k rest hp hc =>
      by_cases hx : x = j
      · subst hx; have := ha x; rw [hp] at this; simpa using this.2 m
      · simpa [update_of_ne hx] using ha x

/-- This can happen in every protocol that communicates at all: if parties close their connections as soon as they have finished,
there is an execution without any fault in which one party fails, while the other two return their results. (The party
that takes the last step of a complete run receives in it, from a party that has finished.) -/
theorem C70_every_protocol_may_fail (p : Party → Prog α) (r : Party → α) (cap0 : Party → Party → Nat)
    (h : AllSchedulesWithin cap0 p r) (hp : ∃ i, ∀ a, p i ≠ .ret a) (hs : ∀ i, (p i).NeverFrom i)
    (cap : Party → Party → ℕ∞) (hc : ∀ s d, (cap0 s d : ℕ∞) ≤ cap s d) :
    ∃ n f j, FStepsN cap .abrupt n (FConfig.init p) f ∧ (∀ i, f.down i = false) ∧
      (∀ i, i ≠ j → f.prog i = .ret (r i)) ∧ f.prog j = .fail .io := by
  obtain ⟨n, hn⟩ := h.run
  obtain ⟨i0, hi0⟩ := hp
  cases n with
  | zero =>
    exfalso
    generalize hx : (⟨fun i => .ret (r i), fun _ _ => []⟩ : Config α) = x at hn
    cases hn
    exact hi0 (r i0) (congrFun (congrArg Config.prog hx) i0).symm
  | succ n =>
    obtain ⟨c, j, hcn, hj⟩ := hn.last
    generalize hx : (⟨fun i => .ret (r i), fun _ _ => []⟩ : Config α) = x at hj
    cases hj with
    | @send d m k hd hr =>
      have := congrFun (congrFun (congrArg Config.chan hx) j) d
      simp at this
    | @recv s m k rest hr hm =>
      have hchan := congrArg Config.chan hx
      have hprog := congrArg Config.prog hx
      have hsj : s ≠ j := by
        have := hcn.neverFrom hs j
        rw [hr] at this
        exact this.1
      have hoth : ∀ i, i ≠ j → c.prog i = .ret (r i) := fun i hi => by
        have := congrFun hprog i
        simpa [update_of_ne hi] using this.symm
      have h0 := FStepsN.of_bsteps (cap' := cap) (mode := .abrupt) hc hcn
      have s1 := FStepsN.succ h0 (.close (s := s) (d := j) 0 rfl (.inl (.inr (.inl ⟨r s, hoth s hsj⟩))) (by simp))
      have s2 := FStepsN.succ s1 (.recvClosed (i := j) (s := s) (k := k) rfl hr (by simp) (by simp [setClosed]))
      exact ⟨_, _, j, s2, fun _ => rfl, fun i hi => by simpa [update_of_ne hi, FConfig.of] using hoth i hi, by simp⟩

theorem FStep.toFaulty {cap : Party → Party → ℕ∞} {f g : FConfig α} (h : FStep cap .abrupt f g) : FStep cap .faulty f g := by
  cases h with
  | send up h op room => exact .send up h op room
  | sendClosed up h cl => exact .sendClosed up h cl
  | recv up h hc => exact .recv up h hc
  | recvClosed up h hc cl => exact .recvClosed up h hc cl
  | close keep op h ho => exact .close keep op h (by simp)
  | lost keep op hm => cases hm
  | crash up hm => cases hm

/-- From every state that is reached, a state in which nothing more happens is reached: the hypothesis `Quiet` of the
theorems above is met at the end of every execution. -/
theorem C70_settles (p : Party → Prog α) (r : Party → α) (h : AllSchedules p r) (cap : Party → Party → ℕ∞) (n : Nat)
    (f : FConfig α) (hf : FStepsN cap .faulty n (FConfig.init p) f) :
    ∃ m g, FStepsN cap .faulty m f g ∧ g.Quiet cap := by
  obtain ⟨N, hN⟩ := C70_terminates p r h
  have ex : ∀ (k m : Nat) (g : FConfig α), FStepsN cap .faulty m f g → N - (n + m) = k →
      ∃ m g, FStepsN cap .faulty m f g ∧ g.Quiet cap := by
    intro k
    induction k with
    | zero =>
      intro m g hg hk
      refine ⟨m, g, hg, fun g' hs => ?_⟩
      have := hN _ _ _ _ (.succ (hf.trans hg) hs.toFaulty)
      omega
    | succ k ih =>
      intro m g hg hk
      by_cases hq : g.Quiet cap
      · exact ⟨m, g, hg, hq⟩
      · unfold FConfig.Quiet at hq
        push Not at hq
        obtain ⟨g', hs⟩ := hq
        exact ih (m + 1) g' (.succ hg hs.toFaulty) (by omega)
  exact ex _ 0 f (.zero _) rfl

/-- Non-vacuity: the exchange of a byte around the ring meets the hypotheses of the theorems about programs. -/
example : (∀ i, (sendAndReceive i [BitVec.ofNat 8 i.val]).NeverFrom i) ∧
    AllSchedulesWithin (fun _ _ => 1) (fun i : Party => sendAndReceive i [BitVec.ofNat 8 i.val])
      (fun i => [BitVec.ofNat 8 i.prev.val]) := by
  refine ⟨fun i => ⟨(by decide : ∀ i : Party, i.prev ≠ i) i, fun _ => trivial⟩, ?_⟩
  refine BStepsN.allSchedulesWithin (n := 6) (.succ 0 (.send (d := 1) (m := [0]) (k := .recv 2 .ret) rfl Nat.one_pos)
    (.succ 1 (.send (d := 2) (m := [1]) (k := .recv 0 .ret) rfl Nat.one_pos)
    (.succ 2 (.send (d := 0) (m := [2]) (k := .recv 1 .ret) rfl Nat.one_pos)
    (.succ 0 (.recv (s := 2) (k := .ret) (m := [2]) (rest := []) rfl rfl)
    (.succ 1 (.recv (s := 0) (k := .ret) (m := [0]) (rest := []) rfl rfl)
    (.succ 2 (.recv (s := 1) (k := .ret) (m := [1]) (rest := []) rfl rfl) ?_))))))
  convert BStepsN.zero _ using 1
  apply Config.ext
  · funext i; fin_cases i <;> rfl
  · funext s d; fin_cases s <;> fin_cases d <;> rfl

/-- And an execution in which faults do something: party 0 crashes before sending, and party 1 reports that. -/
example : ∃ n f, FStepsN (fun _ _ => 2) .faulty n
    (FConfig.init fun i : Party => sendAndReceive i [BitVec.ofNat 8 i.val]) f ∧
    f.down 0 = true ∧ f.prog 1 = .fail .io := by
  have s1 := FStepsN.succ (cap := fun _ _ => 2) (mode := .faulty)
    (.zero (FConfig.init fun i : Party => sendAndReceive i [BitVec.ofNat 8 i.val])) (.crash (i := 0) rfl rfl)
  have s2 := FStepsN.succ s1 (.close (s := 0) (d := 1) 0 rfl (.inl (.inl rfl)) (by simp))
  have s3 := FStepsN.succ s2 (.send (i := 1) (d := 2) (m := [1]) (k := .recv 0 .ret) rfl rfl rfl (by norm_num [FConfig.init, setChan]))
  have s4 := FStepsN.succ s3 (.recvClosed (i := 1) (s := 0) (k := .ret) rfl rfl rfl rfl)
  exact ⟨_, _, s4, rfl, rfl⟩

end Verif
