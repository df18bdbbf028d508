import Verif.Proof.Exact
import Verif.Proof.ExactMal
import Verif.Proof.ExactOps
import Verif.Props.Cost
import Verif.Props.SessionMore

/-!
# C97: the exact traffic and the number of rounds of a query over ABY3 and over its malicious variant
-/

namespace Verif

variable {G : Prg} {K : Nat} {H : Hash}

/-- The operations of ABY3: multiplication, dot products (of any length, and any number of them at once), AND, input and opening
take one exchange; the conversion to bits takes `⌈log K⌉ + 2`. -/
theorem C97_aby3_operations (me : Party) :
    (∀ x y : AShare K, Exchanges me [byteLen K] (Aby3.mul (G := G) me x y)) ∧
    (∀ x y : List (AShare K), Exchanges me [byteLen K] (Aby3.dot (G := G) me x y)) ∧
    (∀ x y : List (List (AShare K)), Exchanges me [x.length * byteLen K] (Aby3.dotMany (G := G) me x y)) ∧
    (∀ x y : AShare K, Exchanges me [byteLen K] (Aby3.and (G := G) me x y)) ∧
    (∀ x y : List (AShare K), Exchanges me [x.length * byteLen K] (Aby3.andMany (G := G) me x y)) ∧
    (∀ (x : Option (BitVec K)) (id : Nat), Exchanges me [byteLen K] (Aby3.input (G := G) me x id)) ∧
    (∀ x : AShare K, Exchanges me [byteLen K] (Aby3.openShare (G := G) me x)) ∧
    (∀ x : List (AShare K), Exchanges me [x.length * byteLen K] (Aby3.openMany (G := G) me x)) ∧
    (∀ x : AShare K, Exchanges me (byteLen K :: byteLen K :: List.replicate (ceilLog2 K) (2 * byteLen K)) (Aby3.a2b (G := G) me x)) :=
  ⟨fun _ _ => (Aby3.exact_mul _ _).exchanges, fun _ _ => (Aby3.exact_dot _ _).exchanges, fun _ _ => (Aby3.exact_dotMany rfl).exchanges,
    fun _ _ => (Aby3.exact_and _ _).exchanges, fun _ _ => (Aby3.exact_andMany rfl).exchanges,
    fun _ _ => (Aby3.exact_input _ _).exchanges, fun _ => (Aby3.exact_open _).exchanges, fun _ => (Aby3.exact_openMany _).exchanges,
    fun _ => (Aby3.exact_a2b _).exchanges⟩

/-- The comparison of `n` values with a threshold takes `K - 1` exchanges, for any `n`. -/
theorem C97_aby3_msb (me : Party) (hK : 3 ≤ K) (x : List (AShare K)) :
    Exchanges me (aby3MsbMsgs K x.length) (Aby3.getMsbMany (G := G) me x) ∧ (aby3MsbMsgs K x.length).length = K - 1 :=
  ⟨(Aby3.exact_getMsbMany hK rfl).exchanges, by simp only [aby3MsbMsgs, List.length_cons, List.length_replicate]; omega⟩

/-- A query over ABY3: every run of the code of one party that returns an answer consisted of exactly these exchanges (send to the
next party, wait for the previous one), in this order and with these lengths, whatever the codes, masks, states and received
messages are. -/
theorem C97_aby3_query (signed : Bool) (me : Party) (hK : 3 ≤ K) (a : List (AShare K)) (b : List (List (AShare K)))
    (m : IrisCodeArray) (ms : List IrisCodeArray) (cs : Nat) :
    Exchanges me (aby3QueryMsgs K cs (chunkSizes b.length cs)) (Iris.irisInDb (Aby3.ops G K signed me) a b m ms cs) :=
  (Aby3.exact_query signed hK cs).exchanges

/-- The same in executions of the three parties, under every schedule. -/
theorem C97_aby3_wire (signed : Bool) (hK : 3 ≤ K) (cs n : Nat) (a : Party → List (AShare K)) (b : Party → List (List (AShare K)))
    (hb : ∀ i, (b i).length = n) (m : IrisCodeArray) (ms : List IrisCodeArray) (st : Party → Aby3St G) :
    EveryoneExchanges (aby3QueryMsgs K cs (chunkSizes n cs))
      (fun i => Iris.irisInDb (Aby3.ops G K signed i) (a i) (b i) m ms cs (st i)) :=
  PX.everyoneExchanges (fun i => hb i ▸ Aby3.exact_query signed hK cs) st

theorem exact_session (signed : Bool) (hK : 3 ≤ K) (cs : Nat) (rs : List (Request (AShare K))) (hr : ∀ r ∈ rs, r.Ok SharesOf)
    (i : Party) : PX i Anything (rs.flatMap fun r => aby3QueryMsgs K cs (chunkSizes r.db.length cs))
      (session (Aby3.ops G K signed i) cs i rs) := by
  induction rs with
  | nil => exact PX.pure trivial
  | cons r rs ih =>
      have hl : (r.b i).length = r.db.length := by
        have := (hr r (by simp)).2.2.2.length i
        simpa using this
      exact (hl ▸ Aby3.exact_query signed hK cs : PX i Anything _ _).bind
        (fun _ _ => (ih fun r h => hr r (by simp [h])).bind (n' := []) (fun _ _ => PX.pure trivial) (List.append_nil _))
        List.flatMap_cons.symm

/-- A session of queries: one after the other. -/
theorem C97_aby3_session (signed : Bool) (hK : 3 ≤ K) (cs : Nat) (rs : List (Request (AShare K))) (hr : ∀ r ∈ rs, r.Ok SharesOf)
    (st : Party → Aby3St G) :
    EveryoneExchanges (rs.flatMap fun r => aby3QueryMsgs K cs (chunkSizes r.db.length cs))
      (fun i => session (Aby3.ops G K signed i) cs i rs (st i)) :=
  PX.everyoneExchanges (exact_session signed hK cs rs hr) st

/-- Set-up and session: the seeds, then the queries; nothing else is ever sent. -/
theorem C97_aby3_program (signed : Bool) (hK : 3 ≤ K) (cs : Nat) (rs : List (Request (AShare K))) (hr : ∀ r ∈ rs, r.Ok SharesOf)
    (seed : Party → Bytes) (hs : ∀ i, (seed i).length = 32) (st : Party → Aby3St G) :
    EveryoneExchanges (32 :: rs.flatMap fun r => aby3QueryMsgs K cs (chunkSizes r.db.length cs))
      (fun i => (do Aby3.preprocess i (seed i); session (Aby3.ops G K signed i) cs i rs : Proto (Aby3St G) _) (st i)) := by
  refine PX.everyoneExchanges (R := Anything) (fun i => ?_) st
  have hp : PX i Anything [32] (Aby3.preprocess (G := G) i (seed i)) := by
    have h := PX.net (σ := Aby3St G) (me := i) (n := [(seed i).length]) (Exact.sendAndReceive (me := i) (m := seed i))
    rw [hs] at h
    exact h.bind (n' := []) (fun _ _ => (PX.lift (R := Anything) fun _ _ => trivial).bind0 fun _ _ => PX.step) rfl
  exact hp.bind (fun _ _ => exact_session signed hK cs rs hr i) rfl

theorem chunkSizes_length {cs : Nat} (hcs : cs ≠ 0) (m : Nat) : (chunkSizes m cs).length = (m + cs - 1) / cs := by
  have h := Aby3.chunks_sizes hcs (List.replicate m ())
  rw [List.length_replicate] at h
  rw [← h, List.length_map, chunksOf_length hcs, List.length_replicate]

theorem orTreeMsgs_length {cs : Nat} (hcs : cs ≠ 0) (n : Nat) : (orTreeMsgs cs n).length = orTreeCalls cs n := by
  induction n using Nat.strong_induction_on with
  | _ n ih =>
      unfold orTreeMsgs orTreeCalls
      by_cases hn : n > 1
      · rw [if_pos hn, if_pos hn, List.length_append, List.length_map, chunkSizes_length hcs, ih _ (by omega)]
      · rw [if_neg hn, if_neg hn]; rfl

theorem orTreeMsgs_sum (cs n : Nat) : (orTreeMsgs cs n).sum = 16 * (n - 1) := by
  induction n using Nat.strong_induction_on with
  | _ n ih =>
      unfold orTreeMsgs
      by_cases hn : n > 1
      · have : ∀ l : List Nat, (l.map (· * 16)).sum = 16 * l.sum := by
          intro l
          induction l with
          | nil => rfl
          | cons x l ih => simp only [List.map_cons, List.sum_cons, ih]; omega
        rw [if_pos hn, List.sum_append, this, Aby3.chunkSizes_sum, ih _ (by omega)]
        omega
      · rw [if_neg hn, List.sum_nil]; omega

/-- The number of rounds: `K` for every chunk, one for every group of words in the tree, and eight at the end. -/
theorem C97_rounds (hK : 2 ≤ K) (n cs : Nat) (hcs : cs ≠ 0) :
    (aby3QueryMsgs K cs (chunkSizes n cs)).length = K * ((n + cs - 1) / cs) + orTreeCalls cs (wordsOf n) + 8 := by
  have h : ∀ l : List Nat, (l.flatMap fun n => n * byteLen K :: aby3MsbMsgs K n).length = K * l.length := by
    intro l
    induction l with
    | nil => rfl
    | cons x l ih =>
        rw [List.flatMap_cons, List.length_append, ih]
        simp only [aby3MsbMsgs, List.length_cons, List.length_replicate]
        rw [Nat.mul_succ]
        omega
  unfold aby3QueryMsgs
  rw [List.length_append, List.length_append, List.length_append, h, chunkSizes_length hcs, Aby3.chunkSizes_sum, orTreeMsgs_length hcs]
  simp only [List.length_cons, List.length_nil]
  omega

/-- If the database fits in one chunk: logarithmic in the number of entries. -/
theorem C97_rounds_one_chunk (hK : 2 ≤ K) (n cs : Nat) (hn : 0 < n) (h : n ≤ cs) :
    (aby3QueryMsgs K cs (chunkSizes n cs)).length = K + ceilLog2 (wordsOf n) + 8 := by
  rw [C97_rounds hK n cs (by omega), C96_or_calls _ _ (by unfold wordsOf; omega), Nat.div_eq_of_lt_le (k := 1) (by omega) (by omega)]
  omega

/-- The lengths of the messages add up to the bytes of `C96`. -/
theorem C97_sum (hK : 3 ≤ K) (cs : Nat) (chunks : List Nat) : (aby3QueryMsgs K cs chunks).sum = aby3QueryBytes K chunks := by
  have h : ∀ l : List Nat, (l.flatMap fun n => n * byteLen K :: aby3MsbMsgs K n).sum
      = (l.map fun n => n * byteLen K + 16 * ((2 * K - 3) * wordsOf n)).sum := by
    intro l
    induction l with
    | nil => rfl
    | cons x l ih =>
        rw [List.flatMap_cons, List.sum_append, ih, List.map_cons, List.sum_cons]
        simp only [aby3MsbMsgs, List.sum_cons, List.sum_replicate_nat]
        obtain ⟨k, rfl⟩ := Nat.exists_eq_add_of_le hK
        rw [show 3 + k - 1 = k + 2 by omega, show 3 + k - 2 = k + 1 by omega, show 2 * (3 + k) - 3 = 2 * k + 3 by omega]
        ring
  unfold aby3QueryMsgs aby3QueryBytes
  rw [List.sum_append, List.sum_append, List.sum_append, h, orTreeMsgs_sum]
  simp only [List.sum_cons, List.sum_nil]
  omega

/-- 128 entries with 16-bit shares in one chunk: 24 rounds. -/
example : (aby3QueryMsgs 16 1024 (chunkSizes 128 1024)).length = 24 := by
  rw [C97_rounds_one_chunk (by omega) _ _ (by omega) (by omega)]
  simp [wordsOf, ceilLog2, ceilLog2Loop]

/-- 1024 entries with 16-bit shares in one chunk: 27 rounds; in chunks of 128 entries: 139. -/
example : (aby3QueryMsgs 16 1024 (chunkSizes 1024 1024)).length = 27 ∧ (aby3QueryMsgs 16 128 (chunkSizes 1024 128)).length = 139 := by
  rw [C97_rounds_one_chunk (by omega) _ _ (by omega) (by omega), C97_rounds (by omega) _ _ (by omega), C96_or_calls _ _ (by simp [wordsOf])]
  simp [wordsOf, ceilLog2, ceilLog2Loop]

/-- The hypotheses are met by a query that runs to its end: two entries with 16-bit shares. -/
example (c : IrisCodeArray) : ∃ es f, Watched (Config.init fun i => Iris.irisInDb (Aby3.ops exPrg 16 false i) ((exRequest c).a i)
    ((exRequest c).b i) (exRequest c).q.mask ((exRequest c).db.map fun x => x.mask) 1024 (exSt i)) es f ∧
    (∀ i, ∃ x, f.prog i = .ret x) ∧
    ∀ i, actionsOf i es = exchanges i ([4, 240] ++ List.replicate 14 16 ++ [8, 4, 2, 1, 4, 2, 1, 1]) := by
  obtain ⟨h1, h2, h3, h4⟩ := exRequest_ok c
  obtain ⟨es, f, hw, hr⟩ := C95_occurs (C14_iris_in_db (by omega) false _ _ h1 h2 _ _ h3 h4 1024 (by omega)
    (show (2 + 1024) * (2 * 16) < 2 ^ 64 by omega) exSt exSt_ready)
  have h := C97_aby3_wire false (by omega) 1024 2 _ _ (fun i => by rw [h4.length i, List.length_map]; rfl) _ _ exSt es f hw hr
  have e : aby3QueryMsgs 16 1024 (chunkSizes 2 1024) = [4, 240] ++ List.replicate 14 16 ++ [8, 4, 2, 1, 4, 2, 1, 1] := by
    rw [show chunkSizes 2 1024 = [2] by decide]
    simp [aby3QueryMsgs, aby3MsbMsgs, wordsOf, byteLen, orTreeMsgs]
  exact ⟨es, f, hw, hr, fun i => e ▸ h i⟩

/-- A session of two queries that runs to its end: 48 rounds in all. -/
example (c : IrisCodeArray) : ∃ es f, Watched (Config.init fun i =>
      session (Aby3.ops exPrg 16 false i) 1024 i [exRequest c, exRequest c] (exSt i)) es f ∧
    (∀ i, ∃ x, f.prog i = .ret x) ∧ ∃ ls : List Nat, ls.length = 48 ∧ ∀ i, actionsOf i es = exchanges i ls := by
  have ho : ∀ r ∈ [exRequest c, exRequest c], r.Ok SharesOf := by
    intro r hr
    simp only [List.mem_cons, List.not_mem_nil, or_false, or_self] at hr
    rw [hr]; exact exRequest_ok c
  obtain ⟨es, f, hw, hr⟩ := C95_occurs (C86_aby3 (by omega) false 1024 (by omega) [exRequest c, exRequest c] (fun r h => ⟨ho r h, by
    simp only [List.mem_cons, List.not_mem_nil, or_false, or_self] at h
    rw [h]; exact (show (2 + 1024) * (2 * 16) < 2 ^ 64 by omega)⟩) exSt exSt_ready)
  refine ⟨es, f, hw, hr, _, ?_, C97_aby3_session false (by omega) 1024 _ ho exSt es f hw hr⟩
  rw [List.flatMap_cons, List.flatMap_cons, List.flatMap_nil, List.append_nil, List.length_append,
    show (exRequest c).db.length = 2 from rfl, C97_rounds_one_chunk (by omega) _ _ (by omega) (by omega)]
  simp [wordsOf, ceilLog2, ceilLog2Loop]

/-! ## The malicious variant of ABY3 -/

theorem malMsbMoves_length (n : Nat) : (malMsbMoves K n).length = 6 * ceilLog2 K + 12 := by
  have h : ∀ k (l : List Move), (List.replicate k l).flatten.length = k * l.length := by
    intro k l; simp
  unfold malMsbMoves
  rw [List.length_append, List.length_append, h]
  simp only [malAndMoves, malCheckMoves, List.length_append, List.length_cons, List.length_nil]
  omega

/-- The operations of the malicious variant: an AND of any number of words takes six rounds, a batch of dot products of vectors of
equal lengths five, whatever their number and lengths are, and the comparison of any number of values `6⌈log K⌉ + 12`. -/
theorem C97_mal_operations (me : Party) (hK : K ≠ 0) :
    (∀ x y : List (AShare K), Moves me (malAndMoves K x.length) (MalAby3.andMany (G := G) H me x y)) ∧
    (∀ x y : List (List (AShare K)), x.map List.length = y.map List.length →
      Moves me (malCheckMoves (verifWidth K) x.length (x.map List.length).sum) (MalAby3.dotMany (G := G) H me x y)) ∧
    (∀ x : List (AShare K), Moves me (malMsbMoves K x.length) (MalAby3.getMsbMany (G := G) H me x)) ∧
    (∀ x : AShare 1, Moves me [.digestBack, .exchange 1, .digestBack] (Jmp.openBit (G := G) H me x)) ∧
    (∀ n, (malAndMoves K n).length = 6) ∧ (∀ n l, (malCheckMoves (verifWidth K) n l).length = 5) ∧
    ∀ n, (malMsbMoves K n).length = 6 * ceilLog2 K + 12 :=
  ⟨fun _ _ => (MalAby3.move_andMany hK rfl).moves, fun _ _ h => (MalAby3.move_dotMany rfl h).moves,
    fun _ => (MalAby3.move_getMsbMany hK rfl).moves, fun _ => (Jmp.move_openBit _).moves, fun _ => rfl, fun _ _ => rfl,
    malMsbMoves_length⟩

/-- A query over the malicious variant of ABY3: every run of the code of one party that returns an answer consisted of exactly
these moves, in this order, whatever the codes, masks, states and received messages are. -/
theorem C97_mal_query (signed : Bool) (me : Party) (hK : K ≠ 0) (a : List (AShare K)) (b : List (List (AShare K)))
    (m : IrisCodeArray) (ms : List IrisCodeArray) (cs : Nat) :
    Moves me (malQueryMoves K cs (chunkSizes b.length cs)) (Iris.irisInDb (MalAby3.ops G H K signed me) a b m ms cs) :=
  (MalAby3.move_query signed hK cs).moves

/-- The same in executions of the three parties, under every schedule. -/
theorem C97_mal_wire (signed : Bool) (hK : K ≠ 0) (cs n : Nat) (a : Party → List (AShare K)) (b : Party → List (List (AShare K)))
    (hb : ∀ i, (b i).length = n) (m : IrisCodeArray) (ms : List IrisCodeArray) (st : Party → JmpSt G) :
    EveryoneMoves (malQueryMoves K cs (chunkSizes n cs))
      (fun i => Iris.irisInDb (MalAby3.ops G H K signed i) (a i) (b i) m ms cs (st i)) :=
  PV.everyoneMoves (fun i => hb i ▸ MalAby3.move_query signed hK cs) st

/-- A session of queries: one after the other. -/
theorem C97_mal_session (signed : Bool) (hK : K ≠ 0) (cs : Nat) (rs : List (Request (AShare K))) (hr : ∀ r ∈ rs, r.Ok SharesOf)
    (st : Party → JmpSt G) :
    EveryoneMoves (rs.flatMap fun r => malQueryMoves K cs (chunkSizes r.db.length cs))
      (fun i => session (MalAby3.ops G H K signed i) cs i rs (st i)) := by
  refine PV.everyoneMoves (R := Anything) (fun i => ?_) st
  induction rs with
  | nil => exact PV.pure trivial
  | cons r rs ih =>
      have hl : (r.b i).length = r.db.length := by
        have := (hr r (by simp)).2.2.2.length i
        simpa using this
      exact (hl ▸ MalAby3.move_query signed hK cs : PV i Anything _ _).bind
        (fun _ _ => (ih fun r h => hr r (by simp [h])).bind (n' := []) (fun _ _ => PV.pure trivial) (List.append_nil _))
        List.flatMap_cons.symm

theorem flatMap_len {X Y : Type} {f : X → List Y} {k : Nat} (h : ∀ x, (f x).length = k) : ∀ l : List X,
    (l.flatMap f).length = k * l.length
  | [] => rfl
  | x :: l => by rw [List.flatMap_cons, List.length_append, h, flatMap_len h l, List.length_cons, Nat.mul_succ]; omega

theorem malOrTreeMoves_length {cs : Nat} (hcs : cs ≠ 0) (n : Nat) : (malOrTreeMoves cs n).length = 6 * orTreeCalls cs n := by
  induction n using Nat.strong_induction_on with
  | _ n ih =>
      unfold malOrTreeMoves orTreeCalls
      by_cases hn : n > 1
      · rw [if_pos hn, if_pos hn, List.length_append, flatMap_len (k := 6) (fun _ => rfl), chunkSizes_length hcs, ih _ (by omega)]
        omega
      · rw [if_neg hn, if_neg hn]; rfl

/-- The number of rounds: `6⌈log K⌉ + 17` for every chunk, six for every group of bits in the tree, and three at the end. -/
theorem C97_mal_rounds (n cs : Nat) (hcs : cs ≠ 0) :
    (malQueryMoves K cs (chunkSizes n cs)).length
      = (6 * ceilLog2 K + 17) * ((n + cs - 1) / cs) + 6 * orTreeCalls (cs * 128) n + 3 := by
  unfold malQueryMoves
  rw [List.length_append, List.length_append, flatMap_len (k := 6 * ceilLog2 K + 17), chunkSizes_length hcs, Aby3.chunkSizes_sum,
    malOrTreeMoves_length (by omega)]
  · rfl
  · intro n
    rw [List.length_append, malMsbMoves_length]
    simp only [malCheckMoves, List.length_cons, List.length_nil]
    omega

/-- If the database fits in one chunk: logarithmic in the number of entries. -/
theorem C97_mal_rounds_one_chunk (n cs : Nat) (hn : 0 < n) (h : n ≤ cs) :
    (malQueryMoves K cs (chunkSizes n cs)).length = 6 * (ceilLog2 K + ceilLog2 n) + 20 := by
  rw [C97_mal_rounds n cs (by omega), C96_or_calls _ _ (by omega), Nat.div_eq_of_lt_le (k := 1) (by omega) (by omega)]
  omega

theorem malAndMoves_bytes (K n : Nat) : ((malAndMoves K n).map Move.bytes).sum = malAndBytes K n := by
  simp only [malAndMoves, malCheckMoves, malAndBytes, malTripleBytes, List.map_append, List.map_cons, List.map_nil, List.sum_append,
    List.sum_cons, List.sum_nil, Move.bytes]
  rw [show byteLen (verifWidth 1) = 8 from rfl]
  ring

theorem flatMap_bytes {X : Type} {f : X → List Move} {g : X → Nat} (h : ∀ x, ((f x).map Move.bytes).sum = g x) : ∀ l : List X,
    ((l.flatMap f).map Move.bytes).sum = (l.map g).sum
  | [] => rfl
  | x :: l => by rw [List.flatMap_cons, List.map_append, List.sum_append, h, flatMap_bytes h l, List.map_cons, List.sum_cons]

theorem malMsbMoves_bytes (n : Nat) : ((malMsbMoves K n).map Move.bytes).sum = malMsbBytes K n := by
  have h : ∀ k (l : List Move), ((List.replicate k l).flatten.map Move.bytes).sum = k * (l.map Move.bytes).sum := by
    intro k l
    induction k with
    | zero => simp
    | succ k ih => rw [List.replicate_succ, List.flatten_cons, List.map_append, List.sum_append, ih]; ring
  unfold malMsbMoves malMsbBytes
  rw [List.map_append, List.map_append, List.sum_append, List.sum_append, h, malAndMoves_bytes, malAndMoves_bytes]
  ring

theorem malOrTreeMoves_bytes {cs : Nat} (hcs : cs ≠ 0) (n : Nat) :
    ((malOrTreeMoves cs n).map Move.bytes).sum = 26 * (n - 1) + 224 * orTreeCalls cs n := by
  induction n using Nat.strong_induction_on with
  | _ n ih =>
      unfold malOrTreeMoves orTreeCalls
      by_cases hn : n > 1
      · have h : ∀ l : List Nat, (l.map (malAndBytes 1)).sum = 26 * l.sum + 224 * l.length := by
          intro l
          induction l with
          | nil => rfl
          | cons x l ih =>
              simp only [List.map_cons, List.sum_cons, List.length_cons, ih, malAndBytes, malTripleBytes, show byteLen 1 = 1 from rfl]
              ring
        rw [if_pos hn, if_pos hn, List.map_append, List.sum_append, flatMap_bytes (malAndMoves_bytes 1), h, Aby3.chunkSizes_sum,
          chunkSizes_length hcs, ih _ (by omega)]
        omega
      · rw [if_neg hn, if_neg hn, List.map_nil, List.sum_nil]; omega

/-- The lengths of the messages add up to the bytes of `C96`. -/
theorem C97_mal_sum (cs : Nat) (hcs : cs ≠ 0) (chunks : List Nat) :
    ((malQueryMoves K cs chunks).map Move.bytes).sum = malQueryBytes K cs chunks := by
  unfold malQueryMoves malQueryBytes
  rw [List.map_append, List.map_append, List.sum_append, List.sum_append,
    flatMap_bytes (g := fun n => malDotBytes (verifWidth K) n (12800 * n) + malMsbBytes K n), malOrTreeMoves_bytes (by omega)]
  · simp only [List.map_cons, List.map_nil, List.sum_cons, List.sum_nil, Move.bytes]
    omega
  · intro n
    rw [List.map_append, List.sum_append, malMsbMoves_bytes]
    simp only [malCheckMoves, malDotBytes, List.map_cons, List.map_nil, List.sum_cons, List.sum_nil, Move.bytes]
    ring

/-- 1024 entries with 16-bit shares in one chunk: 104 rounds (27 in the semi-honest variant). -/
example : (malQueryMoves 16 1024 (chunkSizes 1024 1024)).length = 104 := by
  rw [C97_mal_rounds_one_chunk _ _ (by omega) (by omega)]
  simp [ceilLog2, ceilLog2Loop]

/-- The hypotheses are met by a query over the malicious variant that runs to its end: two entries, 50 rounds. -/
example (c : IrisCodeArray) : ∃ es f, Watched (Config.init fun i => Iris.irisInDb (MalAby3.ops exPrg exHash 16 false i)
    ((exRequest c).a i) ((exRequest c).b i) (exRequest c).q.mask ((exRequest c).db.map fun x => x.mask) 1024 (exJmpSt i)) es f ∧
    (∀ i, ∃ x, f.prog i = .ret x) ∧ ∃ ms : List Move, ms.length = 50 ∧ ∀ i, actionsOf i es = moves i ms := by
  obtain ⟨h1, h2, h3, h4⟩ := exRequest_ok c
  obtain ⟨es, f, hw, hr⟩ := C95_occurs (C36_iris_in_db (H := exHash) (by omega) (by decide) false _ _ h1 h2 _ _ h3 h4 1024 (by omega)
    (by norm_num) (show (2 + 1024) * (2 * 16) < 2 ^ 64 by omega) exJmpSt exJmpSt_ok)
  have h := C97_mal_wire false (by omega) 1024 2 _ _ (fun i => by rw [h4.length i, List.length_map]; rfl) _ _ exJmpSt es f hw hr
  refine ⟨es, f, hw, hr, _, ?_, h⟩
  rw [C97_mal_rounds_one_chunk _ _ (by omega) (by omega)]
  simp [ceilLog2, ceilLog2Loop]

end Verif
