import Verif.Proof.AlikeAndVerify
import Verif.Proof.Swift3Full

/-!
# Same pattern of messages, with possibly different lengths: the whole Swift3 query
-/

namespace Verif

/-- As `Alike`, without the condition on the lengths. -/
inductive Pat {α β : Type} (R : α → β → Prop) : Prog α → Prog β → Prop
  | ret {a b} (h : R a b) : Pat R (.ret a) (.ret b)
  | failL {e q} : Pat R (.fail e) q
  | failR {p e} : Pat R p (.fail e)
  | send {d m m' k k'} (t : Pat R k k') : Pat R (.send d m k) (.send d m' k')
  | recv {s k k'} (t : ∀ m m', Pat R (k m) (k' m')) : Pat R (.recv s k) (.recv s k')

namespace Pat

variable {α β α' β' : Type} {R : α → β → Prop} {R' : α' → β' → Prop} {p : Prog α} {q : Prog β}

theorem of_alike (h : Alike R p q) : Pat R p q := by
  induction h with
  | ret h => exact .ret h
  | failL => exact .failL
  | failR => exact .failR
  | send h t ih => exact .send ih
  | recv t ih => exact .recv ih

theorem looksLike (h : Pat R p q) : ∀ i i', (p.traffic i).blind.LooksLike (q.traffic i').blind := by
  induction h with
  | ret h => intro i i'; simp [Prog.traffic, Traffic.blind, Traffic.LooksLike]
  | failL => intro i i'; simp [Prog.traffic, Traffic.blind, Traffic.LooksLike]
  | failR => intro i i'; simp [Prog.traffic, Traffic.blind, Traffic.LooksLike]
  | send t ih =>
      intro i i'
      have := ih i i'
      simpa [Prog.traffic, Traffic.blind, WireEvent.blind, Traffic.LooksLike, List.cons_prefix_cons] using this
  | recv t ih =>
      intro i i'
      have := ih (i 0) (i' 0) (fun n => i (n + 1)) (fun n => i' (n + 1))
      simpa [Prog.traffic, Traffic.blind, WireEvent.blind, Traffic.LooksLike, List.cons_prefix_cons] using this

theorem bind {f : α → Prog α'} {g : β → Prog β'} (h : Pat R p q) (hf : ∀ a b, R a b → Pat R' (f a) (g b)) :
    Pat R' (p >>= f) (q >>= g) := by
  induction h with
  | ret h => exact hf _ _ h
  | failL => exact .failL
  | failR => exact .failR
  | send t ih => exact .send ih
  | recv t ih => exact .recv ih

theorem mono {R₂ : α → β → Prop} (h : Pat R p q) (hr : ∀ a b, R a b → R₂ a b) : Pat R₂ p q := by
  induction h with
  | ret h => exact .ret (hr _ _ h)
  | failL => exact .failL
  | failR => exact .failR
  | send t ih => exact .send ih
  | recv t ih => exact .recv ih

theorem unwrap (h : Pat R p q) : Pat R p.unwrap q.unwrap := by
  induction h with
  | ret h => exact .ret h
  | failL => exact .failL
  | failR => exact .failR
  | send t ih => exact .send ih
  | recv t ih => exact .recv ih

end Pat

/-- The same for stateful code. -/
def PP {σ τ α β : Type} (S : σ → τ → Prop) (R : α → β → Prop) (p : Proto σ α) (q : Proto τ β) : Prop :=
  ∀ s t, S s t → Pat (fun x y => R x.1 y.1 ∧ S x.2 y.2) (p s) (q t)

namespace PP

variable {σ τ α β α' β' : Type} {S : σ → τ → Prop} {R : α → β → Prop} {R' : α' → β' → Prop}

theorem of_alike {p : Proto σ α} {q : Proto τ β} (h : PA S R p q) : PP S R p q := fun s t hst => .of_alike (h s t hst)

theorem bind {p : Proto σ α} {q : Proto τ β} {f : α → Proto σ α'} {g : β → Proto τ β'} (h : PP S R p q)
    (hf : ∀ a b, R a b → PP S R' (f a) (g b)) : PP S R' (p >>= f) (q >>= g) :=
  fun s t hst => (h s t hst).bind fun a b hab => hf a.1 b.1 hab.1 a.2 b.2 hab.2

theorem pure {a : α} {b : β} (h : R a b) : PP S R (Pure.pure a : Proto σ α) (Pure.pure b : Proto τ β) := .of_alike (.pure h)

theorem lift {x : Except Err α} {y : Except Err β} (h : ∀ a b, x = .ok a → y = .ok b → R a b) :
    PP S R (Proto.lift x : Proto σ α) (Proto.lift y : Proto τ β) := .of_alike (.lift h)

theorem step {f : σ → α × σ} {g : τ → β × τ} (h : ∀ s t, S s t → R (f s).1 (g t).1 ∧ S (f s).2 (g t).2) :
    PP S R (Proto.step f) (Proto.step g) := .of_alike (.step h)

theorem get : PP S S (MonadState.get : Proto σ σ) (MonadState.get : Proto τ τ) := .of_alike .get

/-- Reading the state. -/
theorem of_get {f : σ → Proto σ α} {g : τ → Proto τ β} {s : σ} {t : τ} {Q : α × σ → β × τ → Prop} (h : Pat Q (f s s) (g t t)) :
    Pat Q ((MonadState.get >>= f : Proto σ α) s) ((MonadState.get >>= g : Proto τ β) t) := h

theorem unwrap {p : Proto σ α} {q : Proto τ β} (h : PP S R p q) : PP S R p.unwrap q.unwrap := fun s t hst => (h s t hst).unwrap

theorem guard {c c' : Prop} [Decidable c] [Decidable c'] {e e' : Err} {p : Proto σ α} {q : Proto τ β}
    (h : ¬ c → ¬ c' → PP S R p q) : PP S R (if c then Proto.throw e else p) (if c' then Proto.throw e' else q) := by
  by_cases hc : c
  · simp only [hc, if_true]; exact fun _ _ _ => .failL
  · by_cases hc' : c'
    · simp only [hc', if_true]; exact fun _ _ _ => .failR
    · simpa only [hc, hc', if_false] using h hc hc'

/-- Sending a message of any length. -/
theorem send {d : Party} {m m' : Bytes} :
    PP S (Any : Unit → Unit → Prop) (Proto.net (.send d m (.ret ())) : Proto σ Unit) (Proto.net (.send d m' (.ret ())) : Proto τ Unit) :=
  fun _ _ hst => .send (.ret ⟨trivial, hst⟩)

/-- Receiving a message. -/
theorem recv {s : Party} :
    PP S (Any : Bytes → Bytes → Prop) (Proto.net (.recv s .ret) : Proto σ Bytes) (Proto.net (.recv s .ret) : Proto τ Bytes) :=
  fun _ _ hst => .recv fun _ _ => .ret ⟨trivial, hst⟩

end PP

theorem SamePatternOnWire.of_looksLike {α β : Type} {p : Party → Prog α} {q : Party → Prog β}
    (h : ∀ i inbox inbox', ((p i).traffic inbox).blind.LooksLike ((q i).traffic inbox').blind) : SamePatternOnWire p q := by
  intro es es' c c' hw hw' hr hr' i
  obtain ⟨u, hu⟩ := hw.traffic i (hr i)
  obtain ⟨v, hv⟩ := hw'.traffic i (hr' i)
  have := h i u v
  simp only [Config.init] at hu hv
  rw [hu, hv] at this
  exact (this.2.2 rfl).eq_of_length_le (this.2.1 rfl).length_le

namespace Swift3

variable {G : Prg} {K : Nat} {H : Hash} {me : Party} {S : S3St G K → S3St G K → Prop} [Counts S]

omit [Counts S] in
theorem pat_coin (rng rng' : G.S) : PA S Any (coin H me rng) (coin H me rng') := by
  refine (PA.net (Alike.broadcast (m := H.h _) (m' := H.h _) (by rw [H.len, H.len]))).bind fun _ _ _ => ?_
  refine PA.idxAny.bind fun _ _ _ => PA.idxAny.bind fun _ _ _ => PA.guard fun _ _ => ?_
  refine (PA.net (Alike.broadcast ?_)).bind fun _ _ _ => ?_
  · simp only [Commitment.commit, List.length_append, ringSliceToBytes_length, G.genSeed_length]
  refine PA.idxAny.bind fun _ _ _ => PA.idxAny.bind fun _ _ _ => PA.guard fun _ _ => ?_
  exact PA.guard fun _ _ => PA.guard fun _ _ => PA.pure trivial

/-- The whole exchange of a verification, for two proofs of any sizes. -/
theorem pat_zkVerify {T I : Type} [PolyT T] [Bincode T] [DecidableEq T] {E E' : ZkEnv G T I} {bad bad' : T → Bool}
    (hE : Recurs E.rnd bad) (hE' : Recurs E'.rnd bad') {l m l' m' : Nat} {coords coords' : List T} {Ls Ls' : List (Poly T)}
    {z zp zn z' zp' zn' : List I} (rng rng' : G.S) :
    PP S Any (zkVerify H E bad me l m coords Ls z zp zn rng) (zkVerify H E' bad' me l' m' coords' Ls' z' zp' zn' rng') := by
  refine PP.bind (R := Any) ?_ ?_
  · refine (PP.of_alike (R := Any) (alike_step (fun _ => ⟨rfl, rfl, rfl⟩) (fun _ => ⟨rfl, rfl, rfl⟩) fun _ _ _ => trivial)).bind
      fun s s' _ => ?_
    refine (PP.lift (R := Any) fun _ _ _ _ => trivial).bind ?_
    rintro ⟨seed, proof, rg⟩ ⟨seed', proof', rg'⟩ _
    refine PP.bind (R := Any) ?_ ?_
    · refine PP.send.bind fun _ _ _ => PP.send.bind fun _ _ _ => PP.recv.bind fun _ _ _ => ?_
      refine (PP.lift (R := Any) fun _ _ _ _ => trivial).bind fun _ _ _ => PP.recv.bind fun _ _ _ => ?_
      exact PP.guard fun _ _ => PP.pure trivial
    rintro ⟨pp, pn⟩ ⟨pp', pn'⟩ _
    refine (PP.of_alike (pat_coin rg rg')).bind fun c c' _ => ?_
    refine PP.bind (R := Any) ?_ fun r r' _ => ?_
    · obtain ⟨x, hx⟩ := hE.redraw3 (E.rands3 m (G.ofSeed c)).2
      obtain ⟨y, hy⟩ := hE'.redraw3 (E'.rands3 m' (G.ofSeed c')).2
      rw [hx, hy]
      exact PP.pure trivial
    refine (PP.lift (R := Any) fun _ _ _ _ => trivial).bind fun _ _ _ => ?_
    refine (PP.lift (R := Any) fun _ _ _ _ => trivial).bind fun _ _ _ => ?_
    refine PP.send.bind fun _ _ _ => PP.recv.bind fun _ _ _ => ?_
    exact (PP.lift (R := Any) fun _ _ _ _ => trivial).bind fun _ _ _ => PP.pure trivial
  · rintro ⟨t, vp, vn⟩ ⟨t', vp', vn'⟩ _
    exact PP.lift fun _ _ _ _ => trivial

theorem setParameters_len {α : Type} {z r : ZProof α} {d : ZInput α} {l m : Nat} (h : z.setParameters d l m = .ok r)
    (h0 : z.proof.length ≠ 0) : r.proof.length ≠ 0 := by
  unfold ZProof.setParameters at h
  split at h
  · rename_i hle
    cases h
    unfold ZProof.getMuls at hle
    simp only [Poly.length_resize]
    omega
  · cases h

theorem dotSetParameters_len {z r : DProof K} {l m : Nat} (h : z.setParameters l m = .ok r)
    (h0 : z.proof.length ≠ 0) : r.proof.length ≠ 0 := by
  unfold DProof.setParameters at h
  split at h
  · rename_i hle
    cases h
    unfold DProof.getMuls at hle
    have e : ∀ (n k : Nat) (x : List (DInput K)), (padFirst n k x).length = x.length := by
      intro n k x; simp only [padFirst, List.length_append, List.length_map, List.length_take, List.length_drop]; omega
    simp only [e, Poly.length_resize]
    omega
  · cases h

theorem pat_mulVerify (hG : G.Lively K) (rng rng' : G.S) {s0 t0 : S3St G K} (h0 : SameKinds s0 t0)
    (hs : s0.mulProof.proof.length ≠ 0) (ht : t0.mulProof.proof.length ≠ 0) :
    Pat (fun x y => SameKinds x.2 y.2) (mulVerify H me rng s0) (mulVerify H me rng' t0) := by
  refine Pat.mono (R := fun x y => (Any : Unit → Unit → Prop) x.1 y.1 ∧ SameKinds x.2 y.2) ?_ fun _ _ h => h.2
  unfold mulVerify
  refine PP.of_get ?_
  refine (PP.lift (R := fun z z' => z.proof.length ≠ 0 ∧ z'.proof.length ≠ 0) fun _ _ h h' =>
    ⟨setParameters_len h hs, setParameters_len h' ht⟩).bind (fun z z' hz => ?_) _ _ h0
  refine (PP.lift (R := Any) fun _ _ _ _ => trivial).bind fun _ _ _ => ?_
  refine (PP.step (R := Any) fun _ _ h => ⟨trivial, ⟨fun e => absurd e hz.1, fun e => absurd e hz.2⟩, h.2⟩).bind fun _ _ _ => ?_
  refine (PP.lift (R := Any) fun _ _ _ _ => trivial).bind fun _ _ _ => ?_
  exact pat_zkVerify (hG.2 _) (hG.2 _) rng rng'

theorem pat_dotVerify (hG : G.Lively K) (rng rng' : G.S) {s0 t0 : S3St G K} (h0 : SameKinds s0 t0)
    (hs : s0.dotProof.proof.length ≠ 0) (ht : t0.dotProof.proof.length ≠ 0) :
    Pat (fun x y => SameKinds x.2 y.2) (dotVerify H me rng s0) (dotVerify H me rng' t0) := by
  refine Pat.mono (R := fun x y => (Any : Unit → Unit → Prop) x.1 y.1 ∧ SameKinds x.2 y.2) ?_ fun _ _ h => h.2
  unfold dotVerify
  refine PP.of_get ?_
  refine (PP.lift (R := fun z z' => z.proof.length ≠ 0 ∧ z'.proof.length ≠ 0) fun _ _ h h' =>
    ⟨dotSetParameters_len h hs, dotSetParameters_len h' ht⟩).bind (fun z z' hz => ?_) _ _ h0
  refine (PP.lift (R := Any) fun _ _ _ _ => trivial).bind fun _ _ _ => ?_
  refine (PP.step (R := Any) fun _ _ h => ⟨trivial, h.1, h.2.1, fun e => absurd e hz.1, fun e => absurd e hz.2⟩).bind fun _ _ _ => ?_
  refine (PP.lift (R := Any) fun _ _ _ _ => trivial).bind fun _ _ _ => ?_
  exact pat_zkVerify (hG.2 _) (hG.2 _) rng rng'

theorem pat_andVerify (hG : G.Lively K) (rng rng' : G.S) {s0 t0 : S3St G K} (h0 : SameKinds s0 t0)
    (hs : s0.andProof.proof.length ≠ 0) (ht : t0.andProof.proof.length ≠ 0) :
    Pat (fun x y => SameKinds x.2 y.2) (andVerify H me rng s0) (andVerify H me rng' t0) := by
  refine Pat.mono (R := fun x y => (Any : Unit → Unit → Prop) x.1 y.1 ∧ SameKinds x.2 y.2) ?_ fun _ _ h => h.2
  unfold andVerify
  refine PP.of_get ?_
  refine (PP.lift (R := fun z z' => (z.proof.length ≠ 0 ∧ z'.proof.length ≠ 0) ∧ s0.andProof.calcParams.2 ≤ 2 ^ 23 ∧
    t0.andProof.calcParams.2 ≤ 2 ^ 23) fun z z' h h' => ⟨?_, (andSetParameters_ok h).2.2.1, (andSetParameters_ok h').2.2.1⟩).bind
      (fun z z' hz => ?_) _ _ h0
  · obtain ⟨y, hy, h⟩ := OpsAlike.bindE h
    obtain ⟨y', hy', h'⟩ := OpsAlike.bindE h'
    split at h <;> cases h
    split at h' <;> cases h'
    exact ⟨setParameters_len hy hs, setParameters_len hy' ht⟩
  refine (PP.step (R := Any) fun _ _ h => ⟨trivial, h.1, ⟨fun e => absurd e hz.1.1, fun e => absurd e hz.1.2⟩, h.2.2⟩).bind
    fun _ _ _ => ?_
  refine (PP.lift (R := Any) fun _ _ _ _ => trivial).bind fun _ _ _ => ?_
  exact pat_zkVerify (hG.and _ hz.2.1) (hG.and _ hz.2.2) rng rng'

/-- A verification that is skipped when there is nothing to verify. -/
theorem pat_when {n : S3St G K → Nat} (hn : ∀ s t, SameKinds s t → (n s = 0 ↔ n t = 0)) {p q : Proto (S3St G K) Unit}
    (h : ∀ s t, SameKinds s t → n s ≠ 0 → n t ≠ 0 → Pat (fun x y => SameKinds x.2 y.2) (p s) (q t)) :
    PP SameKinds (Any : Unit → Unit → Prop) (do let s ← get; if n s ≠ 0 then p else pure ())
      (do let s ← get; if n s ≠ 0 then q else pure ()) := by
  intro s t hst
  show Pat _ ((if n s ≠ 0 then p else pure () : Proto _ Unit) s) ((if n t ≠ 0 then q else pure () : Proto _ Unit) t)
  by_cases hs : n s = 0
  · have ht := (hn s t hst).1 hs
    rw [if_neg (by simpa using hs), if_neg (by simpa using ht)]
    exact .ret ⟨trivial, hst⟩
  · have ht := fun e => hs ((hn s t hst).2 e)
    rw [if_pos hs, if_pos ht]
    exact Pat.mono (h s t hst hs ht) fun _ _ h => ⟨trivial, h⟩

theorem pat_verify (hG : G.Lively K) (r1 r2 r3 r1' r2' r3' : G.S) :
    PP (SameKinds (G := G) (K := K)) Any (verify H me r1 r2 r3) (verify H me r1' r2' r3') := by
  rw [verify_parts, verify_parts]
  refine (pat_when (fun _ _ h => h.1) fun _ _ h hs ht => pat_mulVerify hG _ _ h hs ht).bind fun _ _ _ => ?_
  refine (pat_when (fun _ _ h => h.2.1) fun _ _ h hs ht => pat_andVerify hG _ _ h hs ht).bind fun _ _ _ => ?_
  exact pat_when (fun _ _ h => h.2.2) fun _ _ h hs ht => pat_dotVerify hG _ _ h hs ht

end Swift3

namespace OpsAlike

variable {σ A B : Type} {K : Nat} {S : σ → σ → Prop} {o o' : MpcOps σ A B K} {v v' : Proto σ Unit}

theorem hammingLoop_verify (a : List A) : ∀ l, Iris.hammingLoop { o with verify := v } a l = Iris.hammingLoop o a l
  | [] => rfl
  | ((b, dot), mask) :: rest => by
      rw [Iris.hammingLoop, Iris.hammingLoop, hammingLoop_verify a rest]; rfl

theorem diffLoop_verify (st : σ) : ∀ l, Iris.diffLoop { o with verify := v } st l = Iris.diffLoop o st l
  | [] => rfl
  | (hwd, k) :: rest => by
      rw [Iris.diffLoop, Iris.diffLoop, diffLoop_verify st rest]; rfl

/-- The comparisons do not verify. -/
theorem chunkLoop_verify (a : List A) (m : IrisCodeArray) : ∀ l,
    Iris.chunkLoop { o with verify := v } a m l = Iris.chunkLoop o a m l
  | [] => rfl
  | (db, masks) :: rest => by
      rw [Iris.chunkLoop, Iris.chunkLoop, chunkLoop_verify a m rest]
      congr 1
      unfold Iris.compareIrisMany Iris.hammingMany Iris.compareThresholdMany
      simp only [hammingLoop_verify, diffLoop_verify]

/-- A query in which only the pattern of the verification is known. -/
theorem irisInDb_pattern (L : OpsAlike S { o with verify := pure () }) (hv : PP S Any v v') {a a' : List A} {b b' : List (List A)}
    {mA mA' : IrisCodeArray} {m m' : List IrisCodeArray} (ha : SL a a') (hb : Shape b b') (hm : SL m m') (cs : Nat) :
    PP S Any (Iris.irisInDb { o with verify := v } a b mA m cs) (Iris.irisInDb { o with verify := v' } a' b' mA' m' cs) := by
  unfold Iris.irisInDb
  have hl : b.length = b'.length := hb.len
  rw [hl]
  refine PP.guard fun _ _ => ?_
  refine (PP.lift (R := Eq) fun _ _ hx hy => ?_).bind ?_
  · rw [hx] at hy; cases hy; rfl
  rintro n _ rfl
  refine (PP.of_alike (L.precompute n)).bind fun _ _ _ => ?_
  refine (PP.lift (R := List.Forall₂ Shape) fun x y hx hy => ?_).bind fun _ _ hbc => ?_
  · unfold chunksE at hx hy
    split at hx
    · cases hx
    · cases hx; rw [if_neg (by assumption)] at hy; cases hy; exact chunksShape cs b b' hb
  refine (PP.of_alike (PA.chunks _ _ rfl hm)).bind fun _ _ hmc => ?_
  have hc := L.chunkLoop (mA := mA) (mA' := mA') ha (zipChunks hbc hmc)
  rw [chunkLoop_verify (o := o) (v := pure ()) a mA, chunkLoop_verify (o := o) (v := pure ()) a' mA'] at hc
  rw [chunkLoop_verify (o := o) (v := v) a mA, chunkLoop_verify (o := o) (v := v') a' mA']
  refine (PP.of_alike hc).bind fun _ _ hr => ?_
  exact (PP.of_alike (L.reduceBinaryOr cs hr)).bind fun _ _ _ => hv.unwrap.bind fun _ _ _ => PP.of_alike (L.openBit _ _)

end OpsAlike

end Verif
