import Verif.Proof.UniCount

/-!
# Opening one bit after a part with uniform views

The message of the opening is determined by the messages before it, the program of the party and the opened bit.
-/

namespace Verif

theorem withTape_self (i : Party) (t : List Bool) (st : Party → Aby3St bitPrg) : withTape i t st i = st i := by
  unfold withTape
  rw [if_neg ((by decide : ∀ c : Party, c ≠ c.prev) i), if_neg ((by decide : ∀ c : Party, c ≠ c.next) i)]

theorem withTape_ready {i : Party} {st : Party → Aby3St bitPrg} (h : PrfOk fun j => (st j).prf) (t : List Bool) :
    PrfOk fun j => (withTape i t st j).prf := by
  intro j
  have hj := h j
  have hd := (by decide : ∀ i j : Party, (j = i.prev ∧ j.prev = i.next) ∨ (j = i ∧ j.prev = i.prev) ∨ (j = i.next ∧ j.prev = i)) i j
  have n1 := (by decide : ∀ c : Party, c ≠ c.prev) i
  have n2 := (by decide : ∀ c : Party, c ≠ c.next) i
  have n3 := (by decide : ∀ c : Party, c.next ≠ c.prev) i
  rcases hd with ⟨h1, h2⟩ | ⟨h1, h2⟩ | ⟨h1, h2⟩ <;> rw [h1] at hj ⊢ <;> rw [h1] at h2 <;> rw [h2] at hj ⊢ <;>
    simp only [withTape, if_true, if_neg n1, if_neg n2, if_neg n3] <;> first | exact hj | rfl

/-- The last message, computed by the receiver from what it knows and the answer. -/
def lastMsg (s : Party) (x : Bool) : Option (AShare 1 × Aby3St bitPrg) → Log
  | some r => [(s, toBytes (ofBit 1 x ^^^ r.1.a ^^^ r.1.b))]
  | none => []

theorem bitVal_solve {a b c : BitVec 1} {x : Bool} (h : bitVal (a ^^^ b ^^^ c) = x) : c = ofBit 1 x ^^^ a ^^^ b := by
  revert a b c x
  decide

theorem Uni.opened {i : Party} {F : List (Nat × Nat)} {p : Party → Proto (Aby3St bitPrg) (AShare 1)}
    {Q : (Party → AShare 1) → Prop} (h : Uni i F p Q) (st : Party → Aby3St bitPrg) (x : Bool)
    (hx : ∀ t, WPS (fun j => p j >>= Aby3.openBit j) (withTape i t st) (fun r _ => ∀ j, r j = x))
    (n : Nat) (hn : fmtSize F ≤ n) (v : Log) :
    Verif.viewCount (fun j => p j >>= Aby3.openBit j) st i n v = Set.ncard {t : List Bool | t.length = n ∧
      v = msgs i.prev F (t.take (fmtSize F)) ++
        lastMsg i.prev x ((p i (st i)).replay (msgs i.prev F (t.take (fmtSize F))))} := by
  have key : ∀ w : List Bool, w.length = fmtSize F → ∃ (u : List Bool) (a : Party → AShare 1) (s : Aby3St bitPrg),
      u.length = fmtSize F ∧ (p i (st i)).replay (msgs i.prev F w) = some (a i, s) ∧
      ∀ rest, ∃ r, Runs (fun j => ((p j >>= Aby3.openBit j) (withTape i (u ++ rest) st j)).record []) r ∧
        (r i).1 = msgs i.prev F w ++ lastMsg i.prev x (some (a i, s)) := by
    intro w hw
    obtain ⟨u, a, t, l, h1, -, h3, h4⟩ := h st (fun _ => []) w hw
    rw [List.nil_append] at h3
    refine ⟨u, a, t i, h1, ?_, fun rest => ?_⟩
    · have := Runs.replay (h4 []) (i := i) (ms := msgs i.prev F w) (by simpa using h3)
      rwa [withTape_self, withTape_self] at this
    · have hr : Runs (fun j => ((p j >>= Aby3.openBit j) (withTape i (u ++ rest) st j)).record [])
          (fun j => (l j ++ [(j.prev, toBytes (a j.prev).b)],
            (bitVal ((a j).a ^^^ (a j).b ^^^ (a j.prev).b), withTape i rest t j))) := by
        have e : ∀ j, ((p j >>= Aby3.openBit j) (withTape i (u ++ rest) st j)).record [] =
            (p j (withTape i (u ++ rest) st j)).record [] >>= fun r =>
              (Aby3.openBit j r.2.1 r.2.2).record r.1 := fun j => by
          show ((p j (withTape i (u ++ rest) st j)) >>= fun r => Aby3.openBit j r.1 r.2).record [] = _
          rw [Prog.record_bind]
        simp only [e]
        refine Runs.bind (h4 rest) ?_
        have e2 : ∀ j (s : Aby3St bitPrg), Aby3.openBit j (a j) s = Prog.send j.next (toBytes (a j).b) (.recv j.prev fun m =>
            Prog.ofExcept (fromBytes 1 m) >>= fun y => .ret (bitVal ((a j).a ^^^ (a j).b ^^^ y), s)) := by
          intro j s
          show ((sendAndReceiveValue j (a j).b >>= fun y => Prog.ret (y, s)) >>= fun r => _) = _
          unfold sendAndReceiveValue sendAndReceive sendNext recvPrev
          simp only [Prog.send_bind, Prog.ret_bind, Prog.recv_bind, bind_assoc]
          rfl
        simp only [e2]
        refine Uni.record_ring (fun j => toBytes (a j).b) _ l ?_
        simp only [fromBytes_toBytes]
        exact ⟨0, .zero _⟩
      refine ⟨_, hr, ?_⟩
      obtain ⟨r', hr', hx'⟩ := hx (u ++ rest)
      have hu := hr'.unique hr.erase
      have := hx' i
      rw [hu] at this
      simp only [lastMsg]
      rw [h3, ← bitVal_solve this]
  refine viewCount_of (tail := fun w => lastMsg i.prev x ((p i (st i)).replay (msgs i.prev F w))) (fun w hw => ?_) n hn v
    ⟨1, fun w hw => ?_⟩
  · obtain ⟨u, a, s, h1, h2, h3⟩ := key w hw
    refine ⟨u, h1, fun rest v => ?_⟩
    obtain ⟨r, hr, hi⟩ := h3 rest
    rw [Sees.of_runs hr, hi, h2]
  · obtain ⟨u, a, s, h1, h2, h3⟩ := key w hw
    simp only [h2, lastMsg, List.length_singleton]

end Verif
