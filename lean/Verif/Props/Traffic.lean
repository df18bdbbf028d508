import Verif.Proof.AlikeSpdz
import Verif.Proof.Stall
import Verif.Spec.Session
import Verif.Props.Session
import Verif.Props.SpdzQuery

/-!
# C95: whoever watches the wires learns only the sizes

The connections between the parties are encrypted, but their metadata are not: who sends how many bytes to whom, in which
order, and how often a party waits for a message. None of this depends on the irises, on the masks, on the shares, on the
random generators, on the keys or on the answer; it depends on the number of entries, the number of elements per entry, the
width of the ring and the chunk size (and, for the SPDZ-wise backend, on the numbers of values and triples that are waiting).
-/

namespace Verif

variable {G : Prg} {K V : Nat} {H : Hash} {α β : Type}

theorem PA.sameTraffic {σ : Type} {S : σ → σ → Prop} {R : α → β → Prop} {p : Proto σ α} {q : Proto σ β} (h : PA S R p q) :
    SameTraffic S p q := fun s t hst => (h s t hst).looksLike

theorem shape_of_lengths {A B : Type} : ∀ {x : List (List A)} {y : List (List B)},
    x.map List.length = y.map List.length → Shape x y
  | [], [], _ => .nil
  | [], _ :: _, h => by simp at h
  | _ :: _, [], h => by simp at h
  | a :: x, b :: y, h => by
      simp only [List.map_cons, List.cons.injEq] at h
      exact .cons h.1 (shape_of_lengths h.2)

/-! ## One party, whatever it receives -/

/-- A query over ABY3: two runs of the code of one party on codes, databases and masks of the same sizes look the same on the
wire, whatever the states of the generators and the received messages are. -/
theorem C95_aby3_query (signed : Bool) (me : Party) (a a' : List (AShare K)) (b b' : List (List (AShare K)))
    (m m' : IrisCodeArray) (ms ms' : List IrisCodeArray) (cs : Nat) (ha : a.length = a'.length)
    (hb : b.map List.length = b'.map List.length) (hm : ms.length = ms'.length) :
    SameTraffic (fun _ _ => True) (Iris.irisInDb (Aby3.ops G K signed me) a b m ms cs)
      (Iris.irisInDb (Aby3.ops G K signed me) a' b' m' ms' cs) :=
  ((Aby3.ops_alike signed).irisInDb ha (shape_of_lengths hb) hm cs).sameTraffic

/-- The same for the malicious variant of ABY3, with its sacrifice checks and digests. -/
theorem C95_mal_query (signed : Bool) (me : Party) (a a' : List (AShare K)) (b b' : List (List (AShare K)))
    (m m' : IrisCodeArray) (ms ms' : List IrisCodeArray) (cs : Nat) (ha : a.length = a'.length)
    (hb : b.map List.length = b'.map List.length) (hm : ms.length = ms'.length) :
    SameTraffic (fun _ _ => True) (Iris.irisInDb (MalAby3.ops G H K signed me) a b m ms cs)
      (Iris.irisInDb (MalAby3.ops G H K signed me) a' b' m' ms' cs) :=
  ((MalAby3.ops_alike signed).irisInDb ha (shape_of_lengths hb) hm cs).sameTraffic

/-- The same for the SPDZ-wise backend, if equally many values and triples are waiting. -/
theorem C95_spdz_query (signed : Bool) (me : Party) (a a' : List (SShare (verifWidth K)))
    (b b' : List (List (SShare (verifWidth K)))) (m m' : IrisCodeArray) (ms ms' : List IrisCodeArray) (cs : Nat)
    (ha : a.length = a'.length) (hb : b.map List.length = b'.map List.length) (hm : ms.length = ms'.length) :
    SameTraffic Spdz.SameSizes (Iris.irisInDb (Spdz.ops G H K signed me) a b m ms cs)
      (Iris.irisInDb (Spdz.ops G H K signed me) a' b' m' ms' cs) :=
  ((Spdz.ops_alike signed).irisInDb ha (shape_of_lengths hb) hm cs).sameTraffic

/-- The single operations of ABY3. -/
theorem C95_aby3_operations (me : Party) :
    (∀ x y x' y' : AShare K, SameTraffic (fun _ _ => True) (Aby3.mul (G := G) me x y) (Aby3.mul (G := G) me x' y')) ∧
    (∀ x y x' y' : AShare K, SameTraffic (fun _ _ => True) (Aby3.and (G := G) me x y) (Aby3.and (G := G) me x' y')) ∧
    (∀ x y x' y' : List (AShare K), SameTraffic (fun _ _ => True) (Aby3.dot (G := G) me x y) (Aby3.dot (G := G) me x' y')) ∧
    (∀ x x' : AShare K, SameTraffic (fun _ _ => True) (Aby3.openShare (G := G) me x) (Aby3.openShare (G := G) me x')) ∧
    (∀ x x' : AShare K, SameTraffic (fun _ _ => True) (Aby3.getMsb (G := G) me x) (Aby3.getMsb (G := G) me x')) ∧
    (∀ x x' : AShare K, SameTraffic (fun _ _ => True) (Aby3.a2b (G := G) me x) (Aby3.a2b (G := G) me x')) ∧
    (∀ (v v' : Option (BitVec K)) (id : Nat), SameTraffic (fun _ _ => True) (Aby3.input (G := G) me v id) (Aby3.input (G := G) me v' id)) ∧
    (∀ x y x' y' : List (AShare K), x.length = x'.length → y.length = y'.length →
      SameTraffic (fun _ _ => True) (Aby3.mulMany (G := G) me x y) (Aby3.mulMany (G := G) me x' y') ∧
      SameTraffic (fun _ _ => True) (Aby3.andMany (G := G) me x y) (Aby3.andMany (G := G) me x' y') ∧
      SameTraffic (fun _ _ => True) (Aby3.openMany (G := G) me x) (Aby3.openMany (G := G) me x') ∧
      SameTraffic (fun _ _ => True) (Aby3.a2bMany (G := G) me x) (Aby3.a2bMany (G := G) me x') ∧
      SameTraffic (fun _ _ => True) (Aby3.getMsbMany (G := G) me x) (Aby3.getMsbMany (G := G) me x')) :=
  ⟨fun _ _ _ _ => (Aby3.alike_mul _ _ _ _).sameTraffic, fun _ _ _ _ => (Aby3.alike_and _ _ _ _).sameTraffic,
    fun _ _ _ _ => (Aby3.alike_dot _ _ _ _).sameTraffic, fun _ _ => (Aby3.alike_open _ _).sameTraffic,
    fun _ _ => (Aby3.alike_getMsb _ _).sameTraffic, fun _ _ => (Aby3.alike_a2b _ _).sameTraffic,
    fun _ _ _ => (Aby3.alike_input _ _ _).sameTraffic,
    fun _ _ _ _ h h' => ⟨(Aby3.alike_mulMany h h').sameTraffic, (Aby3.alike_andMany h h').sameTraffic,
      (Aby3.alike_openMany h).sameTraffic, (Aby3.alike_a2bMany h).sameTraffic, (Aby3.alike_getMsbMany h).sameTraffic⟩⟩

/-- The single operations of the malicious variant. -/
theorem C95_mal_operations (me : Party) :
    (∀ x y x' y' : AShare K, SameTraffic (fun _ _ => True) (MalAby3.mul (G := G) H me x y) (MalAby3.mul H me x' y')) ∧
    (∀ x y x' y' : AShare K, SameTraffic (fun _ _ => True) (MalAby3.and (G := G) H me x y) (MalAby3.and H me x' y')) ∧
    (∀ x x' : AShare K, SameTraffic (fun _ _ => True) (Jmp.openShare (G := G) H me x) (Jmp.openShare H me x')) ∧
    (∀ x x' : AShare K, SameTraffic (fun _ _ => True) (MalAby3.getMsb (G := G) H me x) (MalAby3.getMsb H me x')) ∧
    (∀ x y x' y' : List (AShare K), x.length = x'.length → y.length = y'.length →
      SameTraffic (fun _ _ => True) (MalAby3.dot (G := G) H me x y) (MalAby3.dot H me x' y') ∧
      SameTraffic (fun _ _ => True) (MalAby3.andMany (G := G) H me x y) (MalAby3.andMany H me x' y') ∧
      SameTraffic (fun _ _ => True) (Jmp.openMany (G := G) H me x) (Jmp.openMany H me x') ∧
      SameTraffic (fun _ _ => True) (MalAby3.getMsbMany (G := G) H me x) (MalAby3.getMsbMany H me x')) :=
  ⟨fun _ _ _ _ => (MalAby3.alike_mul _ _ _ _).sameTraffic, fun _ _ _ _ => (MalAby3.alike_and _ _ _ _).sameTraffic,
    fun _ _ => (Jmp.alike_open _ _).sameTraffic, fun _ _ => (MalAby3.alike_getMsb _ _).sameTraffic,
    fun _ _ _ _ h h' => ⟨(MalAby3.alike_dot h).sameTraffic, (MalAby3.alike_andMany h h').sameTraffic,
      (Jmp.alike_openMany h).sameTraffic, (MalAby3.alike_getMsbMany h).sameTraffic⟩⟩

/-- The single operations of the SPDZ-wise backend, with the check of the MACs and the generation and the check of triples. -/
theorem C95_spdz_operations (me : Party) :
    (∀ x y x' y' : SShare V, SameTraffic Spdz.SameSizes (Spdz.mul (G := G) me x y) (Spdz.mul me x' y')) ∧
    (∀ x y x' y' : AShare K, SameTraffic (Spdz.SameSizes (V := V)) (Spdz.and (G := G) me x y) (Spdz.and me x' y')) ∧
    (∀ x x' : SShare V, SameTraffic Spdz.SameSizes (Spdz.openShare (G := G) H K me x) (Spdz.openShare H K me x')) ∧
    (∀ n, SameTraffic (Spdz.SameSizes (V := V)) (Spdz.precompute (G := G) H me n) (Spdz.precompute H me n)) ∧
    SameTraffic (Spdz.SameSizes (V := V)) (Spdz.verify (G := G) H me) (Spdz.verify H me) ∧
    (∀ x y x' y' : List (List (SShare V)), x.length = x'.length → y.length = y'.length →
      SameTraffic Spdz.SameSizes (Spdz.dotMany (G := G) me x y) (Spdz.dotMany me x' y')) ∧
    (∀ x y x' y' : List (AShare K), x.length = x'.length → y.length = y'.length →
      SameTraffic (Spdz.SameSizes (V := V)) (Spdz.andMany (G := G) me x y) (Spdz.andMany me x' y')) ∧
    (∀ x x' : List (SShare V), x.length = x'.length →
      SameTraffic Spdz.SameSizes (Spdz.openMany (G := G) H K me x) (Spdz.openMany H K me x') ∧
      SameTraffic Spdz.SameSizes (Spdz.getMsbMany (G := G) H K me x) (Spdz.getMsbMany H K me x')) :=
  ⟨fun _ _ _ _ => (Spdz.alike_mul _ _ _ _).sameTraffic, fun _ _ _ _ => (Spdz.alike_and _ _ _ _).sameTraffic,
    fun _ _ => (Spdz.alike_open _ _).sameTraffic, fun n => (Spdz.alike_precompute n).sameTraffic,
    (Spdz.alike_verifyMacs.bind fun _ _ _ => Spdz.alike_verifyTripleQueue).sameTraffic,
    fun _ _ _ _ h h' => (Spdz.alike_dotMany h h').sameTraffic, fun _ _ _ _ h h' => (Spdz.alike_andMany h h').sameTraffic,
    fun _ _ h => ⟨(Spdz.alike_openMany h).sameTraffic, (Spdz.alike_getMsbMany h).sameTraffic⟩⟩

/-! ## The three parties -/

theorem PA.sameOnWire {σ : Type} {S : σ → σ → Prop} {R : α → β → Prop} {p : Party → Proto σ α} {q : Party → Proto σ β}
    (h : ∀ i, PA S R (p i) (q i)) {st st' : Party → σ} (hs : ∀ i, S (st i) (st' i)) :
    SameOnWire (fun i => p i (st i)) (fun i => q i (st' i)) :=
  SameOnWire.of_looksLike fun i inbox inbox' => (h i _ _ (hs i)).looksLike inbox inbox'

theorem rels_len {A X : Type} {Q : X → (Party → A) → Prop} {n : Nat} {zs : List (List X)} {ks : List (Party → List A)}
    (hz : List.Forall₂ (Rels Q) zs ks) (hn : ∀ x ∈ zs, x.length = n) {i : Party} : ∀ l ∈ ks, (l i).length = n := by
  induction hz with
  | nil => intro l hl; cases hl
  | cons hd _ ih =>
      intro l hl
      rcases List.mem_cons.1 hl with rfl | hl
      · rw [hd.length]; exact hn _ (List.mem_cons_self ..)
      · exact ih (fun x hx => hn x (List.mem_cons_of_mem _ hx)) l hl

theorem rows_shape {A : Type} {W : Nat} {R R' : BitVec W → (Party → A) → Prop} {xs ys : List IrisCode} {b b' : Party → List (List A)}
    (hb : Rels (Rels R) (xs.map fun c => encode W c.code) b) (hb' : Rels (Rels R') (ys.map fun c => encode W c.code) b')
    (h : xs.length = ys.length) (i : Party) : Shape (b i) (b' i) := by
  obtain ⟨js, h1, rfl⟩ := hb
  obtain ⟨js', h1', rfl⟩ := hb'
  have hl : ∀ {Q : BitVec W → (Party → A) → Prop} {zs : List IrisCode} {ks : List (Party → List A)},
      List.Forall₂ (Rels Q) (zs.map fun c => encode W c.code) ks → ∀ l ∈ ks, (l i).length = irisCodeSize := by
    intro Q zs ks hz
    refine rels_len hz fun x hx => ?_
    obtain ⟨c, -, rfl⟩ := List.mem_map.1 hx
    exact MpcLawful.encode_length _
  have e1 := h1.length_eq
  have e2 := h1'.length_eq
  rw [List.length_map] at e1 e2
  refine List.forall₂_iff_get.2 ⟨by simp only [List.length_map]; omega, fun k hk hk' => ?_⟩
  simp only [List.get_eq_getElem, List.getElem_map, SL]
  rw [hl h1 _ (List.getElem_mem _), hl h1' _ (List.getElem_mem _)]

theorem Request.sizes {A : Type} {W : Nat} {R R' : BitVec W → (Party → A) → Prop} {r r' : Request A} (h : r.Ok R) (h' : r'.Ok R')
    (e : r.db.length = r'.db.length) (i : Party) : SL (r.a i) (r'.a i) ∧ Shape (r.b i) (r'.b i) ∧
      SL (r.db.map fun c => c.mask) (r'.db.map fun c => c.mask) := by
  refine ⟨?_, rows_shape h.2.2.2 h'.2.2.2 e i, SL.map e⟩
  rw [SL, h.2.2.1.length, h'.2.2.1.length, MpcLawful.encode_length, MpcLawful.encode_length]

theorem session_alike {σ A B : Type} {W : Nat} {S : σ → σ → Prop} {o : MpcOps σ A B K} (L : OpsAlike S o) (cs : Nat) (j : Party)
    {R R' : BitVec W → (Party → A) → Prop} : ∀ {rs rs' : List (Request A)}, (∀ r ∈ rs, r.Ok R) → (∀ r ∈ rs', r.Ok R') →
      rs.map (fun r => r.db.length) = rs'.map (fun r => r.db.length) → PA S SL (session o cs j rs) (session o cs j rs')
  | [], [], _, _, _ => PA.pure rfl
  | [], _ :: _, _, _, h => by simp at h
  | _ :: _, [], _, _, h => by simp at h
  | r :: rs, r' :: rs', ho, ho', h => by
      simp only [List.map_cons, List.cons.injEq] at h
      obtain ⟨h1, h2, h3⟩ := Request.sizes (ho _ (List.mem_cons_self ..)) (ho' _ (List.mem_cons_self ..)) h.1 j
      refine (L.irisInDb h1 h2 h3 cs).bind fun _ _ _ => ?_
      refine (session_alike L cs j (fun r hr => ho r (List.mem_cons_of_mem _ hr)) (fun r hr => ho' r (List.mem_cons_of_mem _ hr))
        h.2).bind fun _ _ hs => PA.pure (by simpa [SL] using hs)

/-- Sessions over ABY3: for any two sequences of queries for which the databases have the same numbers of entries, whatever the
codes, the masks, the shares, the generators and the answers are, the wires carry the same traffic. -/
theorem C95_aby3_wire (signed : Bool) (cs : Nat) (rs rs' : List (Request (AShare K))) (hr : ∀ r ∈ rs, r.Ok SharesOf)
    (hr' : ∀ r ∈ rs', r.Ok SharesOf) (hl : rs.map (fun r => r.db.length) = rs'.map fun r => r.db.length)
    (st st' : Party → Aby3St G) :
    SameOnWire (fun i => session (Aby3.ops G K signed i) cs i rs (st i)) (fun i => session (Aby3.ops G K signed i) cs i rs' (st' i)) :=
  PA.sameOnWire (fun i => session_alike (Aby3.ops_alike signed) cs i hr hr' hl) fun _ => trivial

/-- The same for the malicious variant of ABY3. -/
theorem C95_mal_wire (signed : Bool) (cs : Nat) (rs rs' : List (Request (AShare K))) (hr : ∀ r ∈ rs, r.Ok SharesOf)
    (hr' : ∀ r ∈ rs', r.Ok SharesOf) (hl : rs.map (fun r => r.db.length) = rs'.map fun r => r.db.length)
    (st st' : Party → JmpSt G) :
    SameOnWire (fun i => session (MalAby3.ops G H K signed i) cs i rs (st i))
      (fun i => session (MalAby3.ops G H K signed i) cs i rs' (st' i)) :=
  PA.sameOnWire (fun i => session_alike (MalAby3.ops_alike signed) cs i hr hr' hl) fun _ => trivial

/-- The same for the SPDZ-wise backend, with any two MAC keys. -/
theorem C95_spdz_wire (signed : Bool) (cs : Nat) (key key' : BitVec (verifWidth K)) (rs rs' : List (Request (SShare (verifWidth K))))
    (hr : ∀ r ∈ rs, r.Ok (MacSharesOf key)) (hr' : ∀ r ∈ rs', r.Ok (MacSharesOf key'))
    (hl : rs.map (fun r => r.db.length) = rs'.map fun r => r.db.length)
    (st st' : Party → SpdzSt G (verifWidth K)) (hs : ∀ i, Spdz.SameSizes (st i) (st' i)) :
    SameOnWire (fun i => session (Spdz.ops G H K signed i) cs i rs (st i))
      (fun i => session (Spdz.ops G H K signed i) cs i rs' (st' i)) :=
  PA.sameOnWire (fun i => session_alike (Spdz.ops_alike signed) cs i hr hr' hl) hs

/-! ## Such executions exist, and sizes do show -/

theorem StepsN.watched {n : Nat} {c c' : Config α} (h : StepsN n c c') : ∃ es, Watched c es c' ∧ es.length = n := by
  induction h with
  | zero c => exact ⟨[], .nil c, rfl⟩
  | succ h _ ih =>
      obtain ⟨es, hw, hl⟩ := ih
      obtain ⟨i, h⟩ := h
      cases h with
      | send h => exact ⟨_, .send h hw, by simp [hl]⟩
      | recv h hc => exact ⟨_, .recv h hc hw, by simp [hl]⟩

/-- The observed executions are all executions: whenever the parties return under every schedule, there is an observed one in
which they return. -/
theorem C95_occurs {σ : Type} {p : Party → Proto σ α} {st : Party → σ} {Q : (Party → α) → (Party → σ) → Prop}
    (h : EverySchedule p st Q) : ∃ es c, Watched (Config.init fun i => p i (st i)) es c ∧ ∀ i, ∃ x, c.prog i = .ret x := by
  obtain ⟨a, st', ⟨h, -⟩, -⟩ := h
  obtain ⟨n, c, hn, hs⟩ := Config.exists_stuck (Config.init fun i => p i (st i))
  obtain ⟨es, hw, -⟩ := hn.watched
  exact ⟨es, c, hw, fun i => ⟨_, (h.2 n c hn hs).1 i⟩⟩

/-- Sizes do show: an observer sees how many values are opened. -/
theorem C95_sizes_show (me : Party) (hK : 0 < byteLen K) (x y : List (AShare K)) (h : x.length ≠ y.length) (s t : Aby3St G)
    (inbox inbox' : Nat → Bytes) :
    ¬ (((Aby3.openMany me x s).traffic inbox).LooksLike ((Aby3.openMany me y t).traffic inbox')) := by
  rintro ⟨h1 | h1, -⟩ <;>
  · have h1 := (List.cons_prefix_cons.1 h1).1
    simp only [WireEvent.sent.injEq, ringSliceToBytes_length, List.length_map, true_and] at h1
    have := Nat.eq_of_mul_eq_mul_right hK h1
    omega

/-- A multiplication of bytes at party 0: one byte to party 1, one message from party 2, and the function returns. -/
example (x y : AShare 8) (s : Aby3St G) :
    (Aby3.mul 0 x y s).traffic (fun _ => [7]) = ⟨[.sent 1 1, .took 2], true⟩ := rfl

/-- With a message of the wrong length the same actions are performed, and then the function returns an error. -/
example (x y : AShare 8) (s : Aby3St G) :
    (Aby3.mul 0 x y s).traffic (fun _ => []) = ⟨[.sent 1 1, .took 2], false⟩ := rfl

/-- Two sessions with different codes that meet the hypotheses, and that do run to the end. -/
example (c d : IrisCodeArray) : (∀ r ∈ [exRequest c], r.Ok SharesOf) ∧ (∀ r ∈ [exRequest d], r.Ok SharesOf) ∧
    [exRequest c].map (fun r => r.db.length) = [exRequest d].map (fun r => r.db.length) ∧
    ∃ es f, Watched (Config.init fun i => Iris.irisInDb (Aby3.ops exPrg 16 false i) ((exRequest c).a i) ((exRequest c).b i)
      (exRequest c).q.mask ((exRequest c).db.map fun x => x.mask) 1024 (exSt i)) es f ∧ ∀ i, ∃ x, f.prog i = .ret x := by
  refine ⟨fun r hr => ?_, fun r hr => ?_, rfl, ?_⟩
  · rw [List.mem_singleton.1 hr]; exact exRequest_ok c
  · rw [List.mem_singleton.1 hr]; exact exRequest_ok d
  · obtain ⟨h1, h2, h3, h4⟩ := exRequest_ok c
    exact C95_occurs (C14_iris_in_db (by omega) false _ _ h1 h2 _ _ h3 h4 1024 (by omega)
      (show (2 + 1024) * (2 * 16) < 2 ^ 64 by omega) exSt exSt_ready)

/-- Two freshly set up SPDZ-wise states have the same sizes, whatever their keys and generators are. -/
example (p p' : Prf G) (k k' : AShare V) : Spdz.SameSizes { Spdz.init p with macKey := k } { Spdz.init p' with macKey := k' } :=
  ⟨rfl, ⟨rfl, rfl, rfl, rfl⟩, rfl, rfl, rfl, rfl⟩

end Verif
