import Verif.Proof.CostMal
import Verif.Props.Traffic

/-!
# C96: how much a query communicates

Exact byte counts of what each party sends: independent of the length of the vectors in a dot product, linear in the number of
entries, and least for chunk sizes that are multiples of 128.
-/

namespace Verif

variable {G : Prg} {K : Nat} {H : Hash}

/-- A dot product costs one ring element, however long the two vectors are; so does a multiplication, an AND and an opening. -/
theorem C96_aby3_operations (me : Party) :
    (∀ x y : AShare K, SendsBytes (byteLen K) (Aby3.mul (G := G) me x y)) ∧
    (∀ x y : List (AShare K), SendsBytes (byteLen K) (Aby3.dot (G := G) me x y)) ∧
    (∀ x y : AShare K, SendsBytes (byteLen K) (Aby3.and (G := G) me x y)) ∧
    (∀ x : AShare K, SendsBytes (byteLen K) (Aby3.openShare (G := G) me x)) ∧
    (∀ x y : List (List (AShare K)), SendsBytes (x.length * byteLen K) (Aby3.dotMany (G := G) me x y)) ∧
    (∀ x y : List (AShare K), SendsBytes (x.length * byteLen K) (Aby3.andMany (G := G) me x y)) ∧
    (∀ x : AShare K, SendsBytes (2 * byteLen K * (ceilLog2 K + 1)) (Aby3.a2b (G := G) me x)) :=
  ⟨fun _ _ => (Aby3.cost_mul _ _).sendsBytes, fun _ _ => (Aby3.cost_dot _ _).sendsBytes,
    fun _ _ => (Aby3.cost_and _ _).sendsBytes, fun _ => (Aby3.cost_open _).sendsBytes,
    fun _ _ => (Aby3.cost_dotMany rfl).sendsBytes, fun _ _ => (Aby3.cost_andMany rfl).sendsBytes,
    fun _ => (Aby3.cost_a2b _).sendsBytes⟩

/-- The comparison of `n` shared values with a threshold: `2K - 3` words of 16 bytes per 128 values. -/
theorem C96_aby3_msb (me : Party) (hK : 3 ≤ K) (x : List (AShare K)) :
    SendsBytes (16 * ((2 * K - 3) * wordsOf x.length)) (Aby3.getMsbMany (G := G) me x) :=
  (Aby3.cost_getMsbMany hK rfl).sendsBytes

/-- Combining `n` bits by OR: one word less than the bits fill, and 22 bytes. -/
theorem C96_aby3_or (me : Party) (x : List (AShare 1)) (cs : Nat) :
    SendsBytes (16 * (wordsOf x.length - 1) + 22) (Aby3.reduceBinaryOr (G := G) me x cs) :=
  (Aby3.cost_reduceBinaryOr cs rfl).sendsBytes

/-- A query over ABY3: every run of the code of one party that returns an answer has sent exactly this many bytes, whatever the
codes, the masks, the states and the received messages are. -/
theorem C96_aby3_query (signed : Bool) (me : Party) (hK : 3 ≤ K) (a : List (AShare K)) (b : List (List (AShare K)))
    (m : IrisCodeArray) (ms : List IrisCodeArray) (cs : Nat) :
    SendsBytes (aby3QueryBytes K (chunkSizes b.length cs)) (Iris.irisInDb (Aby3.ops G K signed me) a b m ms cs) :=
  (Aby3.cost_query signed hK cs).sendsBytes

/-- The same in executions of the three parties, under every schedule: all three send the same number of bytes. -/
theorem C96_aby3_wire (signed : Bool) (hK : 3 ≤ K) (cs n : Nat) (a : Party → List (AShare K)) (b : Party → List (List (AShare K)))
    (hb : ∀ i, (b i).length = n) (m : IrisCodeArray) (ms : List IrisCodeArray) (st : Party → Aby3St G) :
    EveryoneSends (aby3QueryBytes K (chunkSizes n cs))
      (fun i => Iris.irisInDb (Aby3.ops G K signed i) (a i) (b i) m ms cs (st i)) :=
  PC.everyoneSends (fun i => hb i ▸ Aby3.cost_query signed hK cs) st

/-- A session of queries: the sum. -/
theorem C96_aby3_session (signed : Bool) (hK : 3 ≤ K) (cs : Nat) (rs : List (Request (AShare K))) (hr : ∀ r ∈ rs, r.Ok SharesOf)
    (st : Party → Aby3St G) :
    EveryoneSends (rs.map fun r => aby3QueryBytes K (chunkSizes r.db.length cs)).sum
      (fun i => session (Aby3.ops G K signed i) cs i rs (st i)) := by
  refine PC.everyoneSends (R := Anything) (fun i => ?_) st
  induction rs with
  | nil => exact PC.pure trivial
  | cons r rs ih =>
      have hl : (r.b i).length = r.db.length := by
        have := (hr r (by simp)).2.2.2.length i
        simpa using this
      refine (hl ▸ Aby3.cost_query signed hK cs : PC Anything _ _).bind
        (fun _ _ => (ih fun r h => hr r (by simp [h])).bind (n' := 0) (fun _ _ => PC.pure trivial) rfl) ?_
      simp

theorem wordsOf_add (n m : Nat) : wordsOf (n + m) ≤ wordsOf n + wordsOf m := by unfold wordsOf; omega

theorem wordsOf_sum : ∀ l : List Nat, wordsOf l.sum ≤ (l.map wordsOf).sum
  | [] => by simp [wordsOf]
  | n :: l => by
      have := wordsOf_sum l
      have := wordsOf_add n l.sum
      simp only [List.sum_cons, List.map_cons]; omega

theorem queryBytes_eq (hK : 3 ≤ K) (l : List Nat) (h : 0 < l.sum) :
    aby3QueryBytes K l + 16 * ((2 * K - 3) * wordsOf l.sum) =
      l.sum * byteLen K + 32 * (K - 1) * wordsOf l.sum + 7 + 16 * ((2 * K - 3) * (l.map wordsOf).sum) := by
  have hs : ∀ l : List Nat, (l.map fun n => n * byteLen K + 16 * ((2 * K - 3) * wordsOf n)).sum
      = l.sum * byteLen K + 16 * ((2 * K - 3) * (l.map wordsOf).sum) := by
    intro l
    induction l with
    | nil => simp
    | cons n l ih => simp only [List.map_cons, List.sum_cons, ih]; ring
  have hw : 1 ≤ wordsOf l.sum := by unfold wordsOf; omega
  obtain ⟨w, hw⟩ := Nat.exists_eq_add_of_le hw
  obtain ⟨k, rfl⟩ := Nat.exists_eq_add_of_le hK
  rw [aby3QueryBytes, hs, hw, show 3 + k - 1 = k + 2 by omega, show 2 * (3 + k) - 3 = 2 * k + 3 by omega, show 1 + w - 1 = w by omega]
  ring

theorem wordsOf_mul (c r : Nat) : wordsOf (128 * c + r) = c + wordsOf r := by unfold wordsOf; omega

/-- With a chunk size that is a multiple of 128 the cost is linear: one ring element per entry, `32 (K - 1)` bytes per 128
entries, and 7 bytes. -/
theorem C96_aby3_closed (hK : 3 ≤ K) (n c : Nat) (hn : 0 < n) :
    aby3QueryBytes K (chunkSizes n (128 * c)) = n * byteLen K + 32 * (K - 1) * wordsOf n + 7 := by
  have h := queryBytes_eq hK (chunkSizes n (128 * c)) (by rw [Aby3.chunkSizes_sum]; exact hn)
  have hw : ((chunkSizes n (128 * c)).map wordsOf).sum = wordsOf n := by
    have hd := Nat.div_add_mod n (128 * c)
    conv_rhs => rw [← hd, Nat.mul_assoc, wordsOf_mul]
    unfold chunkSizes
    rw [List.map_append, List.sum_append, List.map_replicate, List.sum_replicate_nat]
    have : wordsOf (128 * c) = c := by have := wordsOf_mul c 0; simpa [wordsOf] using this
    rw [this, Nat.mul_comm]
    congr 1
    split
    · rename_i h0; rw [h0]; rfl
    · simp
  rw [Aby3.chunkSizes_sum, hw] at h
  omega

/-- No chunk size is cheaper. -/
theorem C96_aby3_least (hK : 3 ≤ K) (n cs : Nat) (hn : 0 < n) :
    n * byteLen K + 32 * (K - 1) * wordsOf n + 7 ≤ aby3QueryBytes K (chunkSizes n cs) := by
  have h := queryBytes_eq hK (chunkSizes n cs) (by rw [Aby3.chunkSizes_sum]; exact hn)
  have hw := wordsOf_sum (chunkSizes n cs)
  rw [Aby3.chunkSizes_sum] at h hw
  have := Nat.mul_le_mul_left (2 * K - 3) hw
  omega

/-- Chunks of one entry cost almost 128 times as much in the comparison: `2K - 3` words for every entry. -/
theorem C96_aby3_single (n : Nat) :
    aby3QueryBytes K (chunkSizes n 1) = n * byteLen K + 16 * (2 * K - 3) * n + 16 * (wordsOf n - 1) + 23 := by
  unfold aby3QueryBytes
  rw [Aby3.chunkSizes_sum]
  simp only [chunkSizes, Nat.div_one, Nat.mod_one, if_true, List.append_nil, List.map_replicate, List.sum_replicate_nat]
  rw [show wordsOf 1 = 1 from rfl]
  ring

/-- The chunks are really the chunks: every one of at most `cs` entries, together `n`. -/
theorem C96_chunk_sizes (n cs : Nat) (hcs : cs ≠ 0) : (chunkSizes n cs).sum = n ∧ ∀ k ∈ chunkSizes n cs, 0 < k ∧ k ≤ cs := by
  refine ⟨Aby3.chunkSizes_sum, fun k hk => ?_⟩
  have := Nat.mod_lt n (Nat.pos_of_ne_zero hcs)
  unfold chunkSizes at hk
  rcases List.mem_append.1 hk with hk | hk
  · rw [(List.mem_replicate.1 hk).2]; omega
  · split at hk
    · cases hk
    · rw [List.mem_singleton.1 hk]; omega

/-! ## The malicious variant of ABY3 -/

/-- The operations of the malicious variant: an AND of `n` words costs the checked bit triples and two words for each pair; a
batch of dot products costs, unlike in ABY3, an element of the larger ring for every element of the vectors. -/
theorem C96_mal_operations (me : Party) (hK : K ≠ 0) :
    (∀ x y : List (AShare K), SendsBytes (malAndBytes K x.length) (MalAby3.andMany (G := G) H me x y)) ∧
    (∀ x y : List (List (AShare K)), x.map List.length = y.map List.length →
      SendsBytes (malDotBytes (verifWidth K) x.length (x.map List.length).sum) (MalAby3.dotMany (G := G) H me x y)) ∧
    (∀ x : List (AShare K), SendsBytes (malMsbBytes K x.length) (MalAby3.getMsbMany (G := G) H me x)) ∧
    (∀ (x : List (AShare 1)) (cs : Nat), SendsBytes (26 * (x.length - 1) + 224 * orTreeCalls (cs * 128) x.length)
      (MalAby3.reduceBinaryOr (G := G) H me x cs)) ∧
    (∀ x : AShare K, SendsBytes (64 + byteLen K + 64) (Jmp.openShare (G := G) H me x)) :=
  ⟨fun _ _ => (MalAby3.cost_andMany hK rfl).sendsBytes, fun _ _ h => (MalAby3.cost_dotMany rfl h).sendsBytes,
    fun _ => (MalAby3.cost_getMsbMany hK rfl).sendsBytes, fun _ cs => (MalAby3.cost_reduceBinaryOr cs rfl).sendsBytes,
    fun _ => (Jmp.cost_open _).sendsBytes⟩

/-- A query over the malicious variant of ABY3. -/
theorem C96_mal_query (signed : Bool) (me : Party) (hK : K ≠ 0) (a : List (AShare K)) (b : List (List (AShare K)))
    (m : IrisCodeArray) (ms : List IrisCodeArray) (cs : Nat) :
    SendsBytes (malQueryBytes K cs (chunkSizes b.length cs)) (Iris.irisInDb (MalAby3.ops G H K signed me) a b m ms cs) :=
  (MalAby3.cost_query signed hK cs).sendsBytes

/-- The same in executions of the three parties, under every schedule. -/
theorem C96_mal_wire (signed : Bool) (hK : K ≠ 0) (cs n : Nat) (a : Party → List (AShare K)) (b : Party → List (List (AShare K)))
    (hb : ∀ i, (b i).length = n) (m : IrisCodeArray) (ms : List IrisCodeArray) (st : Party → JmpSt G) :
    EveryoneSends (malQueryBytes K cs (chunkSizes n cs))
      (fun i => Iris.irisInDb (MalAby3.ops G H K signed i) (a i) (b i) m ms cs (st i)) :=
  PC.everyoneSends (fun i => hb i ▸ MalAby3.cost_query signed hK cs) st

/-- A session of queries: the sum. -/
theorem C96_mal_session (signed : Bool) (hK : K ≠ 0) (cs : Nat) (rs : List (Request (AShare K))) (hr : ∀ r ∈ rs, r.Ok SharesOf)
    (st : Party → JmpSt G) :
    EveryoneSends (rs.map fun r => malQueryBytes K cs (chunkSizes r.db.length cs)).sum
      (fun i => session (MalAby3.ops G H K signed i) cs i rs (st i)) := by
  refine PC.everyoneSends (R := Anything) (fun i => ?_) st
  induction rs with
  | nil => exact PC.pure trivial
  | cons r rs ih =>
      have hl : (r.b i).length = r.db.length := by
        have := (hr r (by simp)).2.2.2.length i
        simpa using this
      refine (hl ▸ MalAby3.cost_query signed hK cs : PC Anything _ _).bind
        (fun _ _ => (ih fun r h => hr r (by simp [h])).bind (n' := 0) (fun _ _ => PC.pure trivial) rfl) ?_
      simp

/-- The price of the check: at least 102400 bytes for every entry, whatever the chunk size is (in ABY3: see `C96_aby3_closed`). -/
theorem C96_mal_price (n cs : Nat) : 102400 * n ≤ malQueryBytes K cs (chunkSizes n cs) := by
  have hs : ∀ l : List Nat, 102400 * l.sum ≤ (l.map fun n => malDotBytes (verifWidth K) n (12800 * n) + malMsbBytes K n).sum := by
    intro l
    induction l with
    | nil => simp
    | cons n l ih =>
        have h8 : 8 ≤ byteLen (verifWidth K) := by unfold verifWidth; split <;> decide
        have := Nat.mul_le_mul_left (2 * n + 12800 * n) h8
        simp only [List.map_cons, List.sum_cons]
        have hd : malDotBytes (verifWidth K) n (12800 * n) = (2 * n + 12800 * n) * byteLen (verifWidth K) + 32 + 64 + 128 := rfl
        omega
  have := hs (chunkSizes n cs)
  rw [Aby3.chunkSizes_sum] at this
  unfold malQueryBytes; omega

/-- The number of calls for combining the bits: one per level if a level fits in a call. -/
theorem C96_or_calls (cs n : Nat) (h : n / 2 ≤ cs) : orTreeCalls cs n = ceilLog2 n := by
  have key : ∀ n, n / 2 ≤ cs → ∀ y, orTreeCalls cs n + y = ceilLog2Loop (n - 1) y := by
    intro n
    induction n using Nat.strong_induction_on with
    | _ n ih =>
        intro h y
        unfold orTreeCalls ceilLog2Loop
        by_cases hn : n > 1
        · rw [if_pos hn, dif_pos (by omega), show (n - 1) / 2 = n / 2 + n % 2 - 1 by omega, ← ih _ (by omega) (by omega),
            Nat.div_eq_of_lt_le (k := 1) (by omega) (by omega)]
          omega
        · rw [if_neg hn, dif_neg (by omega)]; omega
  have := key n h 0
  simpa [ceilLog2] using this

/-! ## Examples -/

/-- A database of 128 entries with 16-bit shares: 743 bytes from each party. -/
example : aby3QueryBytes 16 (chunkSizes 128 1024) = 743 := by decide

/-- 100000 entries in chunks of 1024 with 16-bit shares: 575367 bytes. -/
example : aby3QueryBytes 16 (chunkSizes 100000 (128 * 8)) = 575367 := by rw [C96_aby3_closed (by omega) _ _ (by omega)]; decide

/-- The hypotheses are met by a query that runs to its end: two entries, 491 bytes from each of the parties. -/
example (c : IrisCodeArray) : ∃ es f, Watched (Config.init fun i => Iris.irisInDb (Aby3.ops exPrg 16 false i) ((exRequest c).a i)
    ((exRequest c).b i) (exRequest c).q.mask ((exRequest c).db.map fun x => x.mask) 1024 (exSt i)) es f ∧
    (∀ i, ∃ x, f.prog i = .ret x) ∧ ∀ i, bytesSent (actionsOf i es) = 491 := by
  obtain ⟨h1, h2, h3, h4⟩ := exRequest_ok c
  obtain ⟨es, f, hw, hr⟩ := C95_occurs (C14_iris_in_db (by omega) false _ _ h1 h2 _ _ h3 h4 1024 (by omega)
    (show (2 + 1024) * (2 * 16) < 2 ^ 64 by omega) exSt exSt_ready)
  exact ⟨es, f, hw, hr, C96_aby3_wire false (by omega) 1024 2 _ _ (fun i => by rw [h4.length i, List.length_map]; rfl) _ _ exSt es f hw hr⟩

/-- The same query over the malicious variant: 214539 bytes from each of the parties. -/
example (c : IrisCodeArray) : ∃ es f, Watched (Config.init fun i => Iris.irisInDb (MalAby3.ops exPrg exHash 16 false i)
    ((exRequest c).a i) ((exRequest c).b i) (exRequest c).q.mask ((exRequest c).db.map fun x => x.mask) 1024 (exJmpSt i)) es f ∧
    (∀ i, ∃ x, f.prog i = .ret x) ∧ ∀ i, bytesSent (actionsOf i es) = 214539 := by
  obtain ⟨h1, h2, h3, h4⟩ := exRequest_ok c
  obtain ⟨es, f, hw, hr⟩ := C95_occurs (C36_iris_in_db (H := exHash) (by omega) (by decide) false _ _ h1 h2 _ _ h3 h4 1024 (by omega)
    (by norm_num) (show (2 + 1024) * (2 * 16) < 2 ^ 64 by omega) exJmpSt exJmpSt_ok)
  have h := C96_mal_wire false (by omega) 1024 2 _ _ (fun i => by rw [h4.length i, List.length_map]; rfl) _ _ exJmpSt es f hw hr
  have e : malQueryBytes 16 1024 (chunkSizes 2 1024) = 214539 := by
    have h2 : ceilLog2 2 = 1 := by simp [ceilLog2, ceilLog2Loop]
    have h16 : ceilLog2 16 = 4 := by simp [ceilLog2, ceilLog2Loop]
    have hc : orTreeCalls (1024 * 128) 2 = 1 := by rw [C96_or_calls _ _ (by norm_num), h2]
    rw [show chunkSizes 2 1024 = [2] by decide]
    simp [malQueryBytes, hc, malMsbBytes, h16, malDotBytes, malAndBytes, malTripleBytes, byteLen, verifWidth]
  exact ⟨es, f, hw, hr, fun i => (h i).trans e⟩

end Verif
