import Verif.Props.App
import Verif.Props.MalQuery
import Verif.Props.Swift3PairSetup
import Verif.Proof.PairSetup

/-!
# C83: the whole programs with a corrupt party

The corrupt party is `i.prev`; nothing is assumed about it. `rcvd`, `sent` and `out` are what the honest parties have received and
sent and their results (`HonestViews`).
-/

namespace Verif

open App Jmp Spdz

variable {R : AppRng} {G : Prg} {H : Hash}

/-- A query over any backend and with any network: a party that gets an answer has compared only codes with at least 8960
common valid positions. -/
theorem C83_masks {σ A B : Type} {K : Nat} (o : MpcOps σ A B K) (a : List A) (b : List (List A)) (q : IrisCode)
    (db : List IrisCode) (cs : Nat) (s : σ) (rcvd sent : Party → List Bytes) (x : Bool × σ)
    (h : Local (Iris.irisInDb o a b q.mask (db.map fun c => c.mask) cs s) rcvd sent (.ret x)) :
    ∀ c ∈ db, 8960 ≤ commonBits c q := irisInDb_masks o a b q db cs h

/-- Set-up of malicious ABY3 with any corrupt party: if both honest parties finish, each has received a commitment and a
message that opens it; the generator of the two honest parties is the same at both and comes from the exclusive or of the
seeds they have for each other; the other generator of each comes from the exclusive or of its own seed and of the one
opened to it. The message queues are unchanged. -/
theorem C83_mal_setup (i : Party) (seed1 seed2 rand1 rand2 : Party → Bytes) (h1 : ∀ k, (seed1 k).length = 32)
    (h2 : ∀ k, (seed2 k).length = 32) (st : Party → JmpSt G) (rcvd sent : Party → Party → List Bytes)
    (out : Party → Unit × JmpSt G)
    (hv : HonestViews (fun k => MalAby3.setupPrfFromSeed H k (seed1 k) (seed2 k) (rand1 k) (rand2 k) (st k)) i.prev rcvd sent out) :
    ∃ cm op cm' op', rcvd i i.prev = [cm, op] ∧ rcvd i.next i.prev = [cm', op'] ∧
      (op.length = 64 ∧ cm = H.h op) ∧ (op'.length = 64 ∧ cm' = H.h op') ∧
      (out i).2.prf.my = G.ofSeed (Swift3.xor2 (seed1 i) (seed2 i.next)) ∧
      (out i.next).2.prf.next = (out i).2.prf.my ∧
      (out i).2.prf.next = G.ofSeed (Swift3.xor2 (seed2 i) (op.take 32)) ∧
      (out i.next).2.prf.my = G.ofSeed (Swift3.xor2 (seed1 i.next) (op'.take 32)) ∧
      ∀ k, k ≠ i.prev → (out k).2.sendQueuePrev = (st k).sendQueuePrev ∧ (out k).2.rcvQueueNext = (st k).rcvQueueNext := by
  obtain ⟨cm, op, cm', op', e1, e2, e3, e4, e5, e6⟩ := (MalAby3.setup_p2 (H := H) i (seed1 i) (seed2 i) (rand1 i) (rand2 i)
    (seed1 i.next) (seed2 i.next) (rand1 i.next) (rand2 i.next) (h1 _) (h1 _) (h2 _) (st i) (st i.next)).views hv
  refine ⟨cm, op, cm', op', e1, e2, e3, e4, by rw [e5]; rfl, by rw [e5, e6]; rfl, by rw [e5]; rfl, by rw [e6]; rfl, ?_⟩
  intro k hk
  rcases (by decide : ∀ i l : Party, l ≠ i.prev → l = i ∨ l = i.next) i k hk with rfl | rfl
  · rw [e5]; exact ⟨rfl, rfl⟩
  · rw [e6]; exact ⟨rfl, rfl⟩

/-- A joint state in which the corrupt party holds the generators the honest ones share with it. -/
def withGhost (i : Party) (s s' : JmpSt G) (k : Party) : JmpSt G :=
  if k = i then s else if k = i.next then s' else ⟨⟨s.prf.next, s'.prf.my⟩, [], []⟩

theorem withGhost_prf (i : Party) {s s' : JmpSt G} (h : s'.prf.next = s.prf.my) : PrfOk fun k => (withGhost i s s' k).prf := by
  have n1 := Party.next_ne i
  have n2 := Party.prev_ne i
  have n3 := Party.next_ne_prev i
  intro k
  unfold withGhost
  rcases (by decide : ∀ i l : Party, l = i ∨ l = i.next ∨ l = i.prev) i k with rfl | rfl | rfl
  · simp [n2, n3.symm]
  · simpa [n1, Party.prev_next] using h
  · have e : i.prev.prev = i.next := (by decide : ∀ i : Party, i.prev.prev = i.next) i
    simp [e, n1, n2, n3.symm]

theorem withGhost_left (i : Party) (s s' : JmpSt G) : withGhost i s s' i = s := by simp [withGhost]

theorem withGhost_right (i : Party) (s s' : JmpSt G) : withGhost i s s' i.next = s' := by simp [withGhost, Party.next_ne]

/-- The program `examples/aby3_mal.rs` with any corrupt party, on a database made by the creation program. If both honest
parties finish, then all masks were sufficient, and both print the answer of the plaintext program, unless the corrupt
party has forged one of the calls of the query (`MalAby3.SomeForged`: a hash collision or errors not revealed by a coin,
named by that call). The run consists of the set-up (`st`: states after it) and of the query. -/
theorem C83_mal_aby3 {db : List AbyRow} (hdb : Aby3Db R db) (hne : db ≠ []) (seed : BitVec 64) (shouldMatch : Bool)
    (cs : Nat) (hcs : cs ≠ 0) (hcs' : cs * 128 < 2 ^ 64) (hov : (db.length + cs) * 32 < 2 ^ 64)
    (seed1 seed2 rand1 rand2 : Party → Bytes) (h1 : ∀ i, (seed1 i).length = 32)
    (h2 : ∀ i, (seed2 i).length = 32) (prf₀ : Prf G) (i : Party)
    (rcvd sent : Party → Party → List Bytes) (out : Party → Bool × JmpSt G)
    (hv : HonestViews (fun k => mainMalAby3 G H R seed shouldMatch cs db (seed1 k) (seed2 k) (rand1 k) (rand2 k) k
      ⟨prf₀, [], []⟩) i.prev rcvd sent out) :
    ∃ codes q s, readCodes (db.map (·.toCodeCols)) = .ok codes ∧
      queryIris R seed shouldMatch (db.map (·.toCodeCols)) = .ok (q, s) ∧ (∀ c ∈ codes, 8960 ≤ commonBits c q) ∧
      ∃ (r1 s1 r2 s2 : Party → Party → List Bytes) (st : Party → JmpSt G) (a : Party → List (AShare 16))
        (b : Party → List (List (AShare 16))) (calls : Party → List (MalAby3.Call G 16)),
        (∀ k : Party, readAby3 k.val db = .ok (b k, codes.map fun c => c.mask)) ∧
        (∀ k : Party, irisShareAby3 R seed shouldMatch k.val db = .ok (a k, q.mask)) ∧
        HonestViews (fun k => MalAby3.setupPrfFromSeed H k (seed1 k) (seed2 k) (rand1 k) (rand2 k) ⟨prf₀, [], []⟩) i.prev r1 s1
          (fun k => ((), st k)) ∧
        HonestViews (fun k => Iris.irisInDb (MalAby3.logOps G H 16 false k) (a k) (b k) q.mask (codes.map fun c => c.mask) cs
          (st k, [])) i.prev r2 s2 (fun k => ((out k).1, (out k).2, calls k)) ∧
        (∀ k, k ≠ i.prev → rcvd k = fun d => r1 k d ++ r2 k d) ∧
        (MalAby3.SomeForged H i (calls i) (calls i.next) ∨
          ∀ k, k ≠ i.prev → findMatchDb q (db.map (·.toCodeCols)) = .ok (out k).1) := by
  obtain ⟨codes, h⟩ := hdb.holds
  have hcols := RowHolds.cols_eq h
  have hread : readCodes (db.map (·.toCodeCols)) = .ok codes := by rw [hcols, readCodes_raw]
  have hcne : codes ≠ [] := by
    rintro rfl
    exact hne (List.length_eq_zero_iff.1 (by rw [← h.length_eq]; rfl))
  obtain ⟨q, s, hq⟩ := queryIris_ok R seed shouldMatch codes (fun _ => hcne)
  rw [← hcols] at hq
  obtain ⟨sh, e1, hb⟩ := readAby3_ok h
  obtain ⟨a, e2, ha⟩ := irisShareAby3_ok hq
  have hnew : Iris.new 16 = .ok () := (C16_new 16).1.2 (by omega)
  have hov' : (codes.length + cs) * (2 * 16) < 2 ^ 64 := by rw [h.length_eq]; exact hov
  have hV : 40 ≤ verifWidth 16 - 16 := by decide
  have hprog : ∀ k : Party, mainMalAby3 G H R seed shouldMatch cs db (seed1 k) (seed2 k) (rand1 k) (rand2 k) k ⟨prf₀, [], []⟩ =
      (MalAby3.setupPrfFromSeed H k (seed1 k) (seed2 k) (rand1 k) (rand2 k) >>= fun _ =>
        Iris.irisInDb (MalAby3.ops G H 16 false k) (a k) (sh k) q.mask (codes.map fun c => c.mask) cs) ⟨prf₀, [], []⟩ := by
    intro k
    unfold mainMalAby3
    rw [e1, e2, hnew]
    rfl
  have hset : PWS i (fun k => MalAby3.setupPrfFromSeed H k (seed1 k) (seed2 k) (rand1 k) (rand2 k))
      (fun _ => (⟨prf₀, [], []⟩ : JmpSt G)) (fun _ => False) (fun _ _ _ => True) :=
    PW.of_p2 ((MalAby3.setup_p2 (H := H) i _ _ _ _ _ _ _ _ (h1 _) (h1 _) (h2 _) _ _).mono fun _ _ a b _ =>
        ⟨fun k => if k = i then a else b, by simp, by simp [Party.next_ne], trivial⟩)
  obtain ⟨r1, s1, r2, s2, mid, v1, v2, er, -⟩ := PWS.split hset (hv.congr fun k _ => (hprog k).symm)
  obtain ⟨-, -, -, -, -, -, -, -, -, hn, -, -, hqu⟩ := C83_mal_setup i seed1 seed2 rand1 rand2 h1 h2 _ r1 s1 mid v1
  have hm : ∀ c ∈ codes, 8960 ≤ commonBits c q := irisInDb_masks _ _ _ q codes cs (v2.run i (Party.prev_ne i).symm)
  have hst : ∀ k, k ≠ i.prev → withGhost i (mid i).2 (mid i.next).2 k = (mid k).2 := by
    intro k hk
    rcases (by decide : ∀ i l : Party, l ≠ i.prev → l = i ∨ l = i.next) i k hk with rfl | rfl
    · exact withGhost_left _ _ _
    · exact withGhost_right _ _ _
  have v3 := v2.congr (q := fun k => Iris.irisInDb (MalAby3.ops G H 16 false k) (a k) (sh k) q.mask (codes.map fun c => c.mask) cs
    (withGhost i (mid i).2 (mid i.next).2 k)) fun k hk => by rw [hst k hk]
  obtain ⟨calls, v4, hres⟩ := C74_run_query (by omega) (by omega) hV false i (withGhost i (mid i).2 (mid i.next).2)
    (withGhost_prf i hn) (by
      rw [withGhost_left, withGhost_right, (hqu i (Party.prev_ne i).symm).2, (hqu i.next (Party.next_ne_prev i)).1])
    q codes hcne hm a sh ha hb cs hcs hcs' hov' r2 s2 out v3
  refine ⟨codes, q, s, hread, hq, hm, r1, s1, r2, s2, withGhost i (mid i).2 (mid i.next).2, a, sh, calls, e1, e2, ?_, v4, er, ?_⟩
  · refine ⟨fun k hk => ?_, v1.chan⟩
    rw [hst k hk]
    exact v1.run k hk
  · refine hres.imp id ?_
    rintro ⟨g1, g2⟩ k hk
    rw [findMatchDb_eq hread, C19_find_match q codes hm]
    rcases (by decide : ∀ i l : Party, l ≠ i.prev → l = i ∨ l = i.next) i k hk with rfl | rfl
    · rw [g1, inDb]
    · rw [g2, inDb]

/-- The program `examples/swift3.rs` with any corrupt party, on a database made by the creation program. If both honest
parties finish, then all masks were sufficient. The run consists of the set-up (`st`: states after it), the query up to the verification
(`mid`), the verification (`ver`) and the opening. If the corrupt party has sent the same commitment of its seed for the common generator to
both honest parties in the set-up, then both print the answer of the plaintext program, unless the openings of that
commitment are a hash collision, or one of the registered gates of the corrupt party is wrong although its proof has passed
(see C79), or one of four named pairs of strings hashed by the honest parties is a collision. -/
theorem C83_swift3 {db : List Swift3Row} (hdb : Swift3Db R db) (hne : db ≠ []) (seed : BitVec 64)
    (shouldMatch : Bool) (cs : Nat) (hcs : cs ≠ 0) (hov : (db.length + cs) * 32 < 2 ^ 64) (os : Party → Swift3Os G)
    (hos : ∀ i, ∀ b ∈ [(os i).s0, (os i).s1, (os i).s2, (os i).r0, (os i).r1, (os i).r2], b.length = 32)
    (p : Party → S3Prf G) (i : Party) (rcvd sent : Party → Party → List Bytes) (out : Party → Bool × S3St G 16)
    (ops : Party → MpcOps (S3St G 16) (S3Share 16) (S3Share 1) 16)
    (hops : ops = fun k => Swift3.ops G H 16 false (Swift3.verify H k (os k).rngMul (os k).rngAnd (os k).rngDot) k)
    (hv : HonestViews (fun k => mainSwift3 G H R seed shouldMatch cs db (os k) k (Swift3.new (p k))) i.prev rcvd sent out) :
    ∃ codes q s, readCodes (db.map (·.toCodeCols)) = .ok codes ∧
      queryIris R seed shouldMatch (db.map (·.toCodeCols)) = .ok (q, s) ∧ (∀ c ∈ codes, 8960 ≤ commonBits c q) ∧
      ∃ (r0 s0 r s' : Party → Party → List Bytes) (cm op cm' op' : Bytes) (st : Party → S3St G 16) (a : Party → List (S3Share 16))
        (b : Party → List (List (S3Share 16))),
        (∀ k : Party, readSwift3 k.val db = .ok (b k, codes.map fun c => c.mask)) ∧
        (∀ k : Party, irisShareSwift3 R seed shouldMatch k.val db = .ok (a k, q.mask)) ∧
        HonestViews (fun k => Swift3.setupPrfFromSeed H k (os k).s0 (os k).s1 (os k).s2 (os k).r0 (os k).r1 (os k).r2
          (Swift3.new (p k))) i.prev r0 s0 (fun k => ((), st k)) ∧
        r0 i i.prev = [cm, op] ∧ r0 i.next i.prev = [cm', op'] ∧ Swift3.SetupOpens H cm op ∧ Swift3.SetupOpens H cm' op' ∧
        HonestViews (fun k => Iris.irisInDb (ops k) (a k) (b k) q.mask (codes.map fun c => c.mask) cs (st k)) i.prev r s' out ∧
        (∀ k, k ≠ i.prev → rcvd k = fun d => r0 k d ++ r k d) ∧
        (cm.drop 64 = cm'.drop 64 → Collision H (op.drop 64) (op'.drop 64) ∨
          ∃ (r1 s1 r2 s2 r3 s3 : Party → Party → List Bytes) (mid : Party → S3Share 1 × S3St G 16)
            (ver : Party → Unit × S3St G 16),
          HonestViews (fun k => Iris.queryBody (ops k) (a k) (b k) q.mask (codes.map fun c => c.mask) cs (st k)) i.prev r1 s1 mid ∧
          HonestViews (fun k => Swift3.verify H k (os k).rngMul (os k).rngAnd (os k).rngDot (mid k).2) i.prev r2 s2 ver ∧
          HonestViews (fun k => Swift3.openBit H k (mid k).1 (ver k).2) i.prev r3 s3 out ∧
          (∀ k, k ≠ i.prev → r k = fun d => r1 k d ++ (r2 k d ++ r3 k d)) ∧
          Swift3.PairOk (mid i).2 (mid i.next).2 ∧
          Swift3.AllPassed H i (mid i).2 (mid i.next).2 ⟨(os i).rngMul, (os i).rngAnd, (os i).rngDot⟩
            ⟨(os i.next).rngMul, (os i.next).rngAnd, (os i.next).rngDot⟩ (r2 i i.prev) (r2 i.next i.prev) ∧
          (Swift3.WrongGate (mid i).2 (mid i.next).2 ∨ Swift3.QueueCollision H (mid i).2 (mid i.next).2 ∨
            Swift3.OpenCollision H (r3 i i.prev) (r3 i.next i.prev) (toBytes (mid i.next).1.a) (toBytes (mid i).1.b) ∨
            ∀ k, k ≠ i.prev → findMatchDb q (db.map (·.toCodeCols)) = .ok (out k).1)) := by
  obtain ⟨codes, h⟩ := hdb.holds
  have hcols := RowHolds.cols_eq h
  have hread : readCodes (db.map (·.toCodeCols)) = .ok codes := by rw [hcols, readCodes_raw]
  have hcne : codes ≠ [] := by
    rintro rfl
    exact hne (List.length_eq_zero_iff.1 (by rw [← h.length_eq]; rfl))
  obtain ⟨q, s, hq⟩ := queryIris_ok R seed shouldMatch codes (fun _ => hcne)
  rw [← hcols] at hq
  obtain ⟨sh, e1, hb⟩ := readSwift3_ok h
  obtain ⟨a, e2, ha⟩ := irisShareSwift3_ok hq
  have hnew : Iris.new 16 = .ok () := (C16_new 16).1.2 (by omega)
  have hov' : (codes.length + cs) * (2 * 16) < 2 ^ 64 := by rw [h.length_eq]; exact hov
  have hsz : ∀ k, (⟨(os k).s0, (os k).s1, (os k).s2, (os k).r0, (os k).r1, (os k).r2⟩ : Swift3.SetupIn).Sized := fun k =>
    ⟨hos k _ (by simp), hos k _ (by simp), hos k _ (by simp), hos k _ (by simp), hos k _ (by simp), hos k _ (by simp)⟩
  have hprog : ∀ k : Party, mainSwift3 G H R seed shouldMatch cs db (os k) k (Swift3.new (p k)) =
      (Swift3.setupPrfFromSeed H k (os k).s0 (os k).s1 (os k).s2 (os k).r0 (os k).r1 (os k).r2 >>= fun _ =>
        Iris.irisInDb (ops k) (a k) (sh k) q.mask (codes.map fun c => c.mask) cs) (Swift3.new (p k)) := by
    intro k
    subst hops
    unfold mainSwift3
    rw [e1, e2, hnew]
    rfl
  have hset : PWS i (fun k => Swift3.setupPrfFromSeed H k (os k).s0 (os k).s1 (os k).s2 (os k).r0 (os k).r1 (os k).r2)
      (fun k => (Swift3.new (p k) : S3St G 16)) (fun _ => False) (fun _ _ _ => True) :=
    PW.of_p2 ((Swift3.setup_p2 (H := H) i _ _ (hsz i) (hsz i.next) _ _).mono fun _ _ a b _ =>
        ⟨fun k => if k = i then a else b, by simp, by simp [Party.next_ne], trivial⟩)
  obtain ⟨r0, s0, r, s', mid, v1, v2, er, -⟩ := PWS.split hset (hv.congr fun k _ => (hprog k).symm)
  obtain ⟨cm, op, cm', op', g1, g2, g3, g4, -, -, -, -, hok⟩ := C82_setup i
    (fun k => ⟨(os k).s0, (os k).s1, (os k).s2, (os k).r0, (os k).r1, (os k).r2⟩) hsz p r0 s0 mid v1
  have hm : ∀ c ∈ codes, 8960 ≤ commonBits c q := irisInDb_masks _ _ _ q codes cs (v2.run i (Party.prev_ne i).symm)
  refine ⟨codes, q, s, hread, hq, hm, r0, s0, r, s', cm, op, cm', op', fun k => (mid k).2, a, sh, e1, e2, v1, g1, g2, g3, g4, v2, er, ?_⟩
  intro hcm
  rcases hok hcm with hc | hok
  · exact .inl hc
  right
  obtain ⟨r1, s1, r2, s2, r3, s3, m, ver, w1, w2, w3, w4, w5, w6, w7⟩ := C81_query (H := H) (by omega) (by omega) false i
    (fun k => ⟨(os k).rngMul, (os k).rngAnd, (os k).rngDot⟩) (fun k => (mid k).2) hok q codes hcne hm a sh ha hb cs hcs hov' ops hops
    r s' out v2
  refine ⟨r1, s1, r2, s2, r3, s3, m, ver, w1, w2, w3, w4, w5, w6, ?_⟩
  refine w7.imp id (.imp id (.imp id ?_))
  rintro ⟨g1, g2⟩ k hk
  rw [findMatchDb_eq hread, C19_find_match q codes hm]
  rcases (by decide : ∀ i l : Party, l ≠ i.prev → l = i ∨ l = i.next) i k hk with rfl | rfl
  · rw [g1, inDb]
  · rw [g2, inDb]

/-- The program `examples/spdzwise.rs` with any corrupt party, on a database made in one run of the creation program. If both
honest parties finish, then all masks were sufficient, and the run consists of the set-up (in which a party
simply takes the seed its predecessor sends) and of a query from states `st` that meet the conditions of `C67_run_fresh`:
fitting generators, empty queues and buffers, no triples, shares of the key of the database, and authenticated shares of the
codes. (`st i.prev` is bookkeeping: it holds the generators the honest parties share with the corrupt one.) -/
theorem C83_spdz {db : SpdzDb} (hdb : SpdzDbNew R db) (hne : db.rows ≠ []) (seed : BitVec 64) (shouldMatch : Bool)
    (cs : Nat) (osSeeds : Party → Bytes) (hs : ∀ i, (osSeeds i).length = 32) (prf₀ : Prf G) (i : Party)
    (rcvd sent : Party → Party → List Bytes) (out : Party → Bool × SpdzSt G 64)
    (hv : HonestViews (fun k => mainSpdz G H R seed shouldMatch cs db (osSeeds k) k (Spdz.init prf₀)) i.prev rcvd sent out) :
    ∃ codes q s, readCodes (db.rows.map (·.toCodeCols)) = .ok codes ∧
      queryIris R seed shouldMatch (db.rows.map (·.toCodeCols)) = .ok (q, s) ∧ (∀ c ∈ codes, 8960 ≤ commonBits c q) ∧
      ∃ (sd : Bytes) (r0 s0 r s' : Party → Party → List Bytes) (st : Party → SpdzSt G 64) (key : BitVec 64) (ks : Party → AShare 64)
        (a : Party → List (SShare 64)) (b : Party → List (List (SShare 64))),
        (∀ k : Party, readSpdz k.val db = .ok ⟨b k, codes.map fun c => c.mask, key, ⟨AShare.zero 64, ks k⟩⟩) ∧
        (∀ k : Party, irisShareSpdz R seed shouldMatch k.val db key = .ok (a k, q.mask)) ∧
        HonestViews (fun k => (do
          Spdz.preprocess k (osSeeds k)
          Spdz.setMacKey ⟨AShare.zero 64, ks k⟩ : Proto (SpdzSt G 64) Unit) (Spdz.init prf₀)) i.prev r0 s0 (fun k => ((), st k)) ∧
        r0 i i.prev = [sd] ∧ r0 i.next i.prev = [] ∧ sd.length = 32 ∧ (st i).jmp.prf.next = G.ofSeed sd ∧
        HonestViews (fun k => Iris.irisInDb (Spdz.ops G H 16 false k) (a k) (b k) q.mask (codes.map fun c => c.mask) cs (st k))
          i.prev r s' out ∧
        (∀ k, k ≠ i.prev → rcvd k = fun d => r0 k d ++ r k d) ∧
        (PrfOk fun k => (st k).jmp.prf) ∧ (∀ k, (st k).jmp.rcvQueueNext = [] ∧ (st k).jmp.sendQueuePrev = []) ∧
        (∀ k, (st k).buffer = Triples.empty) ∧ (∀ k, (st k).verifyQueue = []) ∧
        TriplesOf 0 (fun k => (st k).prec.a) (fun k => (st k).prec.b) (fun k => (st k).prec.c) ∧
        (SharesOf key fun k => (st k).macKey) ∧
        Rels (MacSharesOf key) (encode 64 q.code) a ∧ Rels (Rels (MacSharesOf key)) (codes.map fun c => encode 64 c.code) b := by
  obtain ⟨n, s0, s', hc⟩ := hdb
  obtain ⟨key, ka, kb, codes, rows, s'', e, hl, h, -⟩ := createSpdz_ok n s0 ⟨[], []⟩
  rw [hc] at e
  obtain ⟨rfl, -⟩ := Prod.mk.inj (Except.ok.inj e)
  simp only [List.nil_append] at hne hv ⊢
  have hcols := RowHolds.cols_eq h
  have hread : readCodes (rows.map (·.toCodeCols)) = .ok codes := by rw [hcols, readCodes_raw]
  have hcne : codes ≠ [] := by
    rintro rfl
    exact hne (List.length_eq_zero_iff.1 (by rw [← h.length_eq]; rfl))
  obtain ⟨q, s, hq⟩ := queryIris_ok R seed shouldMatch codes (fun _ => hcne)
  rw [← hcols] at hq
  obtain ⟨sh, e1, hb⟩ := readSpdz_ok (a := ka) (b := kb) h
  obtain ⟨a, e2, ha⟩ := irisShareSpdz_ok (key := key) (db := ⟨[keyRow key ka kb], rows⟩) hq
  have hnew : Iris.new 16 = .ok () := (C16_new 16).1.2 (by omega)
  have hprog : ∀ k : Party, mainSpdz G H R seed shouldMatch cs ⟨[keyRow key ka kb], rows⟩ (osSeeds k) k (Spdz.init prf₀) =
      ((Spdz.preprocess k (osSeeds k) >>= fun _ => Spdz.setMacKey ⟨AShare.zero 64, keyParts key ka kb k⟩) >>= fun _ =>
        Iris.irisInDb (Spdz.ops G H 16 false k) (a k) (sh k) q.mask (codes.map fun c => c.mask) cs) (Spdz.init prf₀) := by
    intro k
    unfold mainSpdz
    rw [hnew]
    refine (bind_of_ret (a := ⟨sh k, codes.map fun c => c.mask, key, ⟨AShare.zero 64, keyParts key ka kb k⟩⟩)
      (by rw [e1]; rfl)).trans ?_
    refine (bind_of_ret (a := (a k, q.mask)) (by dsimp only; rw [e2]; rfl)).trans ?_
    rw [bind_assoc]
    rfl
  have hset : PWS i (fun k => Spdz.preprocess k (osSeeds k) >>= fun _ => Spdz.setMacKey ⟨AShare.zero 64, keyParts key ka kb k⟩)
      (fun _ => (Spdz.init prf₀ : SpdzSt G 64)) (fun _ => False) (fun _ _ _ => True) :=
    PW.of_p2 ((Spdz.setup_p2 i _ _ _ _ (hs i) _ _).mono fun _ _ a b _ =>
        ⟨fun k => if k = i then a else b, by simp, by simp [Party.next_ne], trivial⟩)
  obtain ⟨r0, s0, r, s', mid, v1, v2, er, -⟩ := PWS.split hset (hv.congr fun k _ => (hprog k).symm)
  obtain ⟨sd, g1, g1', g2, g3, g4⟩ := (Spdz.setup_p2 i _ _ _ _ (hs i) _ _).views v1
  have hm : ∀ c ∈ codes, 8960 ≤ commonBits c q := irisInDb_masks _ _ _ q codes cs (v2.run i (Party.prev_ne i).symm)
  obtain ⟨st, hst⟩ : ∃ st : Party → SpdzSt G 64, st = fun k => { (Spdz.init prf₀ : SpdzSt G 64) with
      jmp := withGhost i (mid i).2.jmp (mid i.next).2.jmp k, macKey := keyParts key ka kb k } := ⟨_, rfl⟩
  have hmid : ∀ k, k ≠ i.prev → st k = (mid k).2 := by
    intro k hk
    rw [hst]
    rcases (by decide : ∀ i l : Party, l ≠ i.prev → l = i ∨ l = i.next) i k hk with rfl | rfl
    · dsimp only; rw [withGhost_left, g3]
    · dsimp only; rw [withGhost_right, g4]
  refine ⟨codes, q, s, hread, hq, hm, sd, r0, s0, r, s', st, key, keyParts key ka kb, a, sh, e1, e2, ?_, g1, g1', g2, ?_, ?_, er,
    ?_, ?_, ?_, ?_, ?_, ?_, ha, hb⟩
  · refine ⟨fun k hk => ?_, v1.chan⟩
    rw [hmid k hk]
    exact v1.run k hk
  · rw [hmid i (Party.prev_ne i).symm, g3]; rfl
  · exact v2.congr fun k hk => by rw [hmid k hk]; rfl
  · rw [hst]; exact withGhost_prf i (by rw [g3, g4]; rfl)
  · intro k
    rw [hst]
    dsimp only
    unfold withGhost
    split
    · rw [g3]; exact ⟨rfl, rfl⟩
    · split
      · rw [g4]; exact ⟨rfl, rfl⟩
      · exact ⟨rfl, rfl⟩
  · rw [hst]; exact fun _ => rfl
  · rw [hst]; exact fun _ => rfl
  · rw [hst]; exact ⟨[], [], rfl, rfl, Rels.nil, Rels.nil, Rels.nil⟩
  · rw [hst]; exact keyParts_ok key ka kb

/-! ## The hypotheses can be met -/

/-- An execution of honest parties is one with an (honest) corrupt party. -/
theorem EverySchedule.honest {σ α : Type} {p : Party → Proto σ α} {st : Party → σ} {Q : (Party → α) → (Party → σ) → Prop}
    (h : EverySchedule p st Q) : ∃ rcvd sent out, ∀ c, HonestViews (fun k => p k (st k)) c rcvd sent out := by
  obtain ⟨a, st', ⟨⟨-, h⟩, -⟩, -⟩ := h
  obtain ⟨n, t, hn, ht⟩ := (Config.init fun k => p k (st k)).exists_stuck
  obtain ⟨r, s, hl, hc⟩ := Reaches.views ⟨n, hn⟩
  refine ⟨r, s, fun i => (a i, st' i), fun c => ⟨fun k _ => ?_, fun k l _ _ _ => ?_⟩⟩
  · have := hl k
    rw [(h n t hn ht).1 k] at this
    exact this
  · rw [hc k l]; exact List.prefix_append _ _

/-- The codes drawn by the example generator have full masks. -/
theorem exRng_full {c : IrisCode} {s : Unit} (e : randomCodes (exRng false) 1 () = .ok ([c], s)) :
    (∀ d ∈ [c], 8960 ≤ commonBits d c) ∧ ∃ t, IrisCode.randomRng (exRng false) () = .ok (c, t) := by
  obtain ⟨c', e3, -, hm⟩ := IrisCode.randomRng_ok (exRng false) ()
  have hcs : c = c' := by
    simp only [randomCodes, e3, bind, Except.bind, pure, Except.pure] at e
    have := (Prod.mk.inj (Except.ok.inj e)).1
    simpa using this.symm
  subst hcs
  refine ⟨fun d hd => ?_, _, e3⟩
  rw [List.mem_singleton.1 hd]
  have : c = ⟨c.code, IrisCodeArray.ones⟩ := by
    have : c.mask = IrisCodeArray.ones := C17_ext _ _ fun i => by
      rw [hm i, (C17_bitwise IrisCodeArray.zero IrisCodeArray.zero i).2.2.2]; rfl
    cases c; simp_all
  rw [this, fullMask_common]; omega

/-- Finished runs of the malicious ABY3 program exist. -/
example (i : Party) : ∃ (db : List AbyRow), Aby3Db (exRng false) db ∧ db ≠ [] ∧ db.length = 1 ∧ 128 * 128 < 2 ^ 64 ∧
    ∃ rcvd sent out, HonestViews (fun k => mainMalAby3 exPrg exHash (exRng false) 7 false 128 db (exSeed k) (exSeed k) (exSeed 0) (exSeed 0) k
      ⟨Prf.new [] [], [], []⟩) i.prev rcvd sent out := by
  obtain ⟨db, c, q, s, h1, h2, h3, h4, h5, -⟩ := ex_app false
  have hl : db.length = 1 := by
    obtain ⟨codes, h⟩ := h1.holds
    have := RowHolds.cols_eq h
    rw [this, readCodes_raw] at h3
    rw [Except.ok.inj h3] at h
    exact h.length_eq.symm
  refine ⟨db, h1, h2, hl, by norm_num, ?_⟩
  obtain ⟨codes, q', s', g1, g2, g3, -⟩ := C63_mal_aby3 (G := exPrg) (H := exHash) h1 h2 7 false 128 (by omega) (by norm_num)
    (by rw [hl]; norm_num) exSeed exSeed (fun _ => exSeed 0) (fun _ => exSeed 0) (fun _ => by simp [exSeed]) (fun _ => by simp [exSeed])
    (fun _ => by simp [exSeed]) (fun _ => by simp [exSeed]) (Prf.new [] [])
  rw [h3] at g1
  obtain rfl := Except.ok.inj g1
  rw [h4] at g2
  obtain ⟨rfl, rfl⟩ := Prod.mk.inj (Except.ok.inj g2)
  obtain ⟨r, t, o, h⟩ := (g3 (fun d hd => by rw [List.mem_singleton.1 hd]; exact h5 rfl)).honest
  exact ⟨r, t, o, h _⟩

/-- Finished runs of the SPDZ-wise program exist. -/
example (i : Party) : ∃ (db : SpdzDb), SpdzDbNew (exRng false) db ∧ db.rows ≠ [] ∧
    ∃ rcvd sent out, HonestViews (fun k => mainSpdz exPrg exHash (exRng false) 7 false 256 db (exSeed k) k
      (Spdz.init (Prf.new [] []))) i.prev rcvd sent out := by
  obtain ⟨key, a, b, cs, rows, s', e, hl, h, ⟨s'', e2⟩, -⟩ := createSpdz_ok (R := exRng false) 1 () ⟨[], []⟩
  obtain ⟨c, rfl⟩ := List.length_eq_one_iff.1 hl
  obtain ⟨hm, t0, hr⟩ := exRng_full e2
  have hread : readCodes (rows.map (·.toCodeCols)) = .ok [c] := by rw [RowHolds.cols_eq h, readCodes_raw]
  have hne : rows ≠ [] := by rintro rfl; cases h
  have hdb : SpdzDbNew (exRng false) ⟨[] ++ [keyRow key a b], [] ++ rows⟩ := ⟨1, (), s', e⟩
  refine ⟨_, hdb, hne, ?_⟩
  obtain ⟨codes, q', t, g1, g2, g3, -⟩ := C63_spdz (G := exPrg) (H := exHash) hdb hne 7 false 2 (by omega)
    (by simp [← h.length_eq]) exSeed (fun _ => by simp [exSeed]) (Prf.new [] [])
  have g1' : readCodes (rows.map (·.toCodeCols)) = .ok codes := g1
  rw [hread] at g1'
  obtain rfl := Except.ok.inj g1'
  have g2' : IrisCode.randomRng (exRng false) () = .ok (q', t) := g2
  rw [hr] at g2'
  obtain ⟨rfl, -⟩ := Prod.mk.inj (Except.ok.inj g2')
  obtain ⟨r, t, o, h⟩ := (g3 hm).honest
  exact ⟨r, t, o, h _⟩

/-- Finished runs of the Swift3 program exist. -/
example (i : Party) : ∃ (db : List Swift3Row) (os : Party → Swift3Os zeroPrg), Swift3Db (exRng false) db ∧ db ≠ [] ∧
    (∀ i, ∀ b ∈ [(os i).s0, (os i).s1, (os i).s2, (os i).r0, (os i).r1, (os i).r2], b.length = 32) ∧
    ∃ rcvd sent out, HonestViews (fun k => mainSwift3 zeroPrg exHash (exRng false) 7 false 128 db (os k) k
      (Swift3.new (S3Prf.new [] [] []))) i.prev rcvd sent out := by
  obtain ⟨cs, rows, s', e, hl, h, s'', e2⟩ := createSwift3_ok (R := exRng false) 1 () []
  obtain ⟨c, rfl⟩ := List.length_eq_one_iff.1 hl
  obtain ⟨hm, t0, hr⟩ := exRng_full e2
  have hne : rows ≠ [] := by rintro rfl; cases h
  have hq : queryIris (exRng false) 7 false (rows.map (·.toCodeCols)) = .ok (c, t0) := hr
  have hos : ∀ k : Party, ∀ b ∈ [exSeed k, exSeed k, exSeed k, exSeed 0, exSeed 0, exSeed 0], b.length = 32 := fun k b hb => by
    simp only [List.mem_cons, List.not_mem_nil, or_false, or_self] at hb
    rcases hb with rfl | rfl | rfl | rfl <;> simp [exSeed]
  refine ⟨rows, fun k => ⟨exSeed k, exSeed k, exSeed k, exSeed 0, exSeed 0, exSeed 0, (0, false), (0, false), (0, false)⟩,
    by simpa using Swift3Db.create .empty e, hne, hos, ?_⟩
  obtain ⟨sh, e1, hb⟩ := readSwift3_ok h
  obtain ⟨a, e2, ha⟩ := irisShareSwift3_ok hq
  have hnew : Iris.new 16 = .ok () := (C16_new 16).1.2 (by omega)
  have hset := Swift3.setup_wp (G := zeroPrg) (H := exHash) exSeed exSeed exSeed
    (fun _ => exSeed 0) (fun _ => exSeed 0) (fun _ => exSeed 0) (fun k => hos k _ (by simp)) (fun k => hos k _ (by simp))
    (fun k => hos k _ (by simp)) (fun k => hos 0 _ (by simp)) (fun k => hos 0 _ (by simp)) (fun k => hos 0 _ (by simp))
    (fun _ => (Swift3.new (S3Prf.new [] [] []) : S3St zeroPrg 16))
  have key : WPS (fun k => mainSwift3 zeroPrg exHash (exRng false) 7 false 128 rows
      ⟨exSeed k, exSeed k, exSeed k, exSeed 0, exSeed 0, exSeed 0, (0, false), (0, false), (0, false)⟩ k)
      (fun _ => Swift3.new (S3Prf.new [] [] [])) (fun _ _ => True) := by
    unfold mainSwift3
    refine WPS.bind (WPS.lift (a := fun i => (sh i, [c].map fun c => c.mask)) e1 ?_)
    refine WPS.bind (WPS.lift (a := fun i => (a i, c.mask)) e2 ?_)
    refine WPS.bind (WPS.lift (a := fun _ => ()) (fun _ => hnew) ?_)
    refine WPS.bind (hset.mono ?_)
    intro _ st' hst
    exact (query_finishes (H := exHash) (by norm_num) (by norm_num) false (Swift3.setup_ok hst)
      (by simp) (by simp) hm ha hb (cs := 128) (by norm_num) (by simp) (fun _ => (0, false)) (fun _ => (0, false)) (fun _ => 0)).mono
      fun _ _ _ => trivial
  obtain ⟨r, s, o, -, -, hv⟩ := honest_views key
  exact ⟨r, s, o, hv i.prev⟩

end Verif
