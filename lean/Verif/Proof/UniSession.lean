import Verif.Spec.Session
import Verif.Proof.UniOpen
import Verif.Proof.SpdzLockCount
import Verif.Props.Iris

/-!
# Several openings one after the other: views of ABY3 sessions

`TapeSim i N M T p` says: the messages that party `i` receives are `M` of its own state and of a string `w` of `N` bits, its
state afterwards is `T` of both, and every string `w` occurs for some piece of the unknown tape. `M` and `T` do not depend on
anything that the party does not know.
-/

namespace Verif

attribute [local irreducible] hammingDistance commonBits encode

theorem withTape_withTape (i : Party) (t t' : List Bool) (st : Party → Aby3St bitPrg) : withTape i t (withTape i t' st) = withTape i t st := by
  funext j
  unfold withTape
  split_ifs <;> rfl

/-- See the head of this file. -/
def TapeSim {α : Type} (i : Party) (N : Nat) (M : Aby3St bitPrg → List Bool → Log) (T : Aby3St bitPrg → List Bool → Aby3St bitPrg)
    (p : Party → Proto (Aby3St bitPrg) α) : Prop :=
  ∀ (st : Party → Aby3St bitPrg) (acc : Party → Log) (w : List Bool), Aby3Ready st → w.length = N →
    ∃ (u : List Bool) (a : Party → α) (t : Party → Aby3St bitPrg) (l : Party → Log),
      u.length = N ∧ Aby3Ready t ∧ t i = T (st i) w ∧ l i = acc i ++ M (st i) w ∧
      ∀ rest, Runs (fun j => (p j (withTape i (u ++ rest) st j)).record (acc j)) fun j => (l j, (a j, withTape i rest t j))

/-- The messages determine the string. -/
def Faithful (N : Nat) (M : Aby3St bitPrg → List Bool → Log) : Prop :=
  ∃ k, ∀ s, (∀ w : List Bool, w.length = N → (M s w).length = k) ∧
    ∀ w w' : List Bool, w.length = N → w'.length = N → M s w = M s w' → w = w'

namespace TapeSim

variable {α β : Type} {i : Party} {N N' : Nat} {M M' : Aby3St bitPrg → List Bool → Log} {T T' : Aby3St bitPrg → List Bool → Aby3St bitPrg}

/-- Messages of two parts. -/
def seqM (N : Nat) (M M' : Aby3St bitPrg → List Bool → Log) (T : Aby3St bitPrg → List Bool → Aby3St bitPrg) (s : Aby3St bitPrg) (w : List Bool) : Log :=
  M s (w.take N) ++ M' (T s (w.take N)) (w.drop N)

/-- State after two parts. -/
def seqT (N : Nat) (T T' : Aby3St bitPrg → List Bool → Aby3St bitPrg) (s : Aby3St bitPrg) (w : List Bool) : Aby3St bitPrg :=
  T' (T s (w.take N)) (w.drop N)

theorem faithful_seq (h : Faithful N M) (h' : Faithful N' M') : Faithful (N + N') (seqM N M M' T) := by
  obtain ⟨k, h⟩ := h
  obtain ⟨k', h'⟩ := h'
  refine ⟨k + k', fun s => ?_⟩
  obtain ⟨h1, h2⟩ := h s
  refine ⟨fun w hw => ?_, fun w w' hw hw' e => ?_⟩
  · rw [seqM, List.length_append, h1 _ (by rw [List.length_take]; omega), (h' _).1 _ (by rw [List.length_drop]; omega)]
  · have l1 : (w.take N).length = N := by rw [List.length_take]; omega
    have l1' : (w'.take N).length = N := by rw [List.length_take]; omega
    obtain ⟨e1, e2⟩ := List.append_inj e (by rw [h1 _ l1, h1 _ l1'])
    have e3 := h2 _ _ l1 l1' e1
    rw [e3] at e2
    have e4 := (h' _).2 _ _ (by rw [List.length_drop]; omega) (by rw [List.length_drop]; omega) e2
    rw [← List.take_append_drop N w, ← List.take_append_drop N w', e3, e4]

theorem pure (x : Party → α) : TapeSim i 0 (fun _ _ => []) (fun s _ => s) fun j => (Pure.pure (x j) : Proto (Aby3St bitPrg) α) :=
  fun st acc _ hst _ => ⟨[], x, st, acc, rfl, hst, rfl, (List.append_nil _).symm, fun _ => ⟨0, .zero _⟩⟩

theorem bind {p : Party → Proto (Aby3St bitPrg) α} {k : Party → α → Proto (Aby3St bitPrg) β} (h : TapeSim i N M T p)
    (hk : ∀ a : Party → α, TapeSim i N' M' T' fun j => k j (a j)) : TapeSim i (N + N') (seqM N M M' T) (seqT N T T') fun j => p j >>= k j :=
  fun st acc w hst hw => by
  obtain ⟨u, a, t, l, h1, h2, h3, h4, h5⟩ := h st acc (w.take N) hst (by rw [List.length_take]; omega)
  obtain ⟨u', a', t', l', k1, k2, k3, k4, k5⟩ := hk a t l (w.drop N) h2 (by rw [List.length_drop]; omega)
  refine ⟨u ++ u', a', t', l', by rw [List.length_append, h1, k1], k2, by rw [k3, h3]; rfl, by rw [k4, h4, h3, List.append_assoc]; rfl, fun rest => ?_⟩
  have e : ∀ j, ((p j >>= k j) (withTape i (u ++ u' ++ rest) st j)).record (acc j)
      = (p j (withTape i (u ++ (u' ++ rest)) st j)).record (acc j) >>= fun r => (k j r.2.1 r.2.2).record r.1 := by
    intro j
    rw [List.append_assoc]
    exact Prog.record_bind _ _ _
  simp only [e]
  exact (h5 (u' ++ rest)).bind (k5 rest)

/-- The number of tapes for each view. -/
theorem count {p : Party → Proto (Aby3St bitPrg) α} (h : TapeSim i N M T p) (hM : Faithful N M) {st : Party → Aby3St bitPrg} (hst : Aby3Ready st)
    (n : Nat) (hn : N ≤ n) (v : Log) :
    Verif.viewCount p st i n v = Set.ncard {t : List Bool | t.length = n ∧ v = M (st i) (t.take N)} := by
  classical
  have h' : ∀ w : List Bool, ∃ u : List Bool, w.length = N → u.length = N ∧ ∀ rest v,
      Sees (fun j => p j (withTape i (u ++ rest) st j)) i v ↔ v = M (st i) w := fun w => by
    by_cases hw : w.length = N
    · obtain ⟨u, a, t, l, h1, -, -, h4, h5⟩ := h st (fun _ => []) w hst hw
      exact ⟨u, fun _ => ⟨h1, fun rest v => by rw [Sees.of_runs (h5 rest), h4, List.nil_append]⟩⟩
    · exact ⟨[], fun h => absurd h hw⟩
  choose U hU using h'
  obtain ⟨k, hM⟩ := hM
  obtain ⟨-, hinj⟩ := hM (st i)
  have hlen : ∀ t : List Bool, t.length = n → (t.take N).length = N := fun t ht => by rw [List.length_take]; omega
  have hsee : ∀ t : List Bool, t.length = n → ∀ v, Sees (fun j => p j (withTape i (U (t.take N) ++ t.drop N) st j)) i v ↔
      v = M (st i) (t.take N) := fun t ht v => (hU _ (hlen t ht)).2 _ v
  let Φ : List Bool → List Bool := fun t => U (t.take N) ++ t.drop N
  have hmaps : ∀ t : List Bool, t.length = n → (Φ t).length = n := fun t ht => by
    have := (hU _ (hlen t ht)).1
    simp only [Φ, List.length_append, List.length_drop]
    omega
  have hI : ∀ t t' : List Bool, t.length = n → t'.length = n → Φ t = Φ t' → t = t' := by
    intro t t' ht ht' he
    have h1 := (hsee t ht _).2 rfl
    have e : U (t.take N) ++ t.drop N = U (t'.take N) ++ t'.drop N := he
    rw [e] at h1
    have h4 := hinj _ _ (hlen t ht) (hlen t' ht') ((hsee t' ht' _).1 h1)
    have h5 := List.append_inj_right e (by rw [(hU _ (hlen t ht)).1, (hU _ (hlen t' ht')).1])
    rw [← List.take_append_drop N t, ← List.take_append_drop N t', h4, h5]
  have hsurj : ∀ t : List Bool, t.length = n → ∃ t', t'.length = n ∧ Φ t' = t := by
    intro t ht
    obtain ⟨a, ha, e⟩ := Set.surj_on_of_inj_on_of_ncard_le (s := {l : List Bool | l.length = n})
      (t := {l : List Bool | l.length = n}) (fun a _ => Φ a) (fun a ha => hmaps a ha)
      (fun a b ha hb he => hI a b ha hb he) le_rfl (List.finite_length_eq Bool n) t ht
    exact ⟨a, ha, e.symm⟩
  unfold viewCount
  rw [← Set.InjOn.ncard_image (f := Φ) (s := {t : List Bool | t.length = n ∧ v = M (st i) (t.take N)})
    (fun a ha b hb he => hI a b ha.1 hb.1 he)]
  congr 1
  ext t
  constructor
  · rintro ⟨ht, hs⟩
    obtain ⟨t', ht', rfl⟩ := hsurj t ht
    exact ⟨t', ⟨ht', (hsee t' ht' v).1 hs⟩, rfl⟩
  · rintro ⟨t', ⟨ht', hv⟩, rfl⟩
    exact ⟨hmaps t' ht', (hsee t' ht' v).2 hv⟩

end TapeSim

/-- The messages of a part with uniform views that ends with the opening of the bit `x`. -/
def openedM (i : Party) (F : List (Nat × Nat)) (p : Proto (Aby3St bitPrg) (AShare 1)) (x : Bool) (s : Aby3St bitPrg) (w : List Bool) : Log :=
  msgs i.prev F w ++ lastMsg i.prev x ((p s).replay (msgs i.prev F w))

/-- The state of the party afterwards. -/
def openedT (i : Party) (F : List (Nat × Nat)) (p : Proto (Aby3St bitPrg) (AShare 1)) (s : Aby3St bitPrg) (w : List Bool) : Aby3St bitPrg :=
  (((p s).replay (msgs i.prev F w)).map Prod.snd).getD s

theorem Uni.sim {i : Party} {F : List (Nat × Nat)} {p : Party → Proto (Aby3St bitPrg) (AShare 1)}
    {Q : (Party → AShare 1) → Prop} (h : Uni i F p Q) (x : Bool)
    (hx : ∀ st, Aby3Ready st → WPS (fun j => p j >>= Aby3.openBit j) st (fun r st' => (∀ j, r j = x) ∧ Aby3Ready st')) :
    TapeSim i (fmtSize F) (openedM i F (p i) x) (openedT i F (p i)) fun j => p j >>= Aby3.openBit j := by
  intro st acc w hst hw
  obtain ⟨u, a, t, l, h1, -, h3, h4⟩ := h st acc w hw
  have hrep : (p i (st i)).replay (msgs i.prev F w) = some (a i, t i) := by
    have := Runs.replay (h4 []) (i := i) (ms := msgs i.prev F w) h3
    rwa [withTape_self, withTape_self] at this
  have hr : ∀ rest, Runs (fun j => ((p j >>= Aby3.openBit j) (withTape i (u ++ rest) st j)).record (acc j))
      (fun j => (l j ++ [(j.prev, toBytes (a j.prev).b)],
        (bitVal ((a j).a ^^^ (a j).b ^^^ (a j.prev).b), withTape i rest t j))) := by
    intro rest
    have e : ∀ j, ((p j >>= Aby3.openBit j) (withTape i (u ++ rest) st j)).record (acc j) =
        (p j (withTape i (u ++ rest) st j)).record (acc j) >>= fun r =>
          (Aby3.openBit j r.2.1 r.2.2).record r.1 := fun j => by
      show ((p j (withTape i (u ++ rest) st j)) >>= fun r => Aby3.openBit j r.1 r.2).record (acc j) = _
      rw [Prog.record_bind]
    simp only [e]
    refine Runs.bind (h4 rest) ?_
    have e2 : ∀ j (s : Aby3St bitPrg), Aby3.openBit j (a j) s = Prog.send j.next (toBytes (a j).b) (.recv j.prev fun m =>
        Prog.ofExcept (fromBytes 1 m) >>= fun y => .ret (bitVal ((a j).a ^^^ (a j).b ^^^ y), s)) := by
      intro j s
      show ((sendAndReceiveValue j (a j).b >>= fun y => Prog.ret (y, s)) >>= fun r => _) = _
      unfold sendAndReceiveValue sendAndReceive sendNext recvPrev
      simp only [Prog.send_bind, Prog.ret_bind, Prog.recv_bind, bind_assoc]
      rfl
    simp only [e2]
    refine Uni.record_ring (fun j => toBytes (a j).b) _ l ?_
    simp only [fromBytes_toBytes]
    exact ⟨0, .zero _⟩
  obtain ⟨r', hr', hx', hok⟩ := hx (withTape i (u ++ []) st) (withTape_ready hst _)
  have hu := hr'.unique (hr []).erase
  have hxi := hx' i
  rw [hu] at hxi
  have hok' : Aby3Ready (withTape i [] t) := by
    have e : (fun j => (r' j).2) = withTape i [] t := by funext j; rw [hu]
    rw [← e]; exact hok
  refine ⟨u, fun j => bitVal ((a j).a ^^^ (a j).b ^^^ (a j.prev).b), withTape i [] t, fun j => l j ++ [(j.prev, toBytes (a j.prev).b)], h1, hok',
    ?_, ?_, fun rest => ?_⟩
  · rw [withTape_self, openedT, hrep]; rfl
  · show l i ++ _ = _
    rw [openedM, hrep, lastMsg, h3, ← bitVal_solve hxi, List.append_assoc]
  · have := hr rest
    simp only [withTape_withTape]
    exact this

theorem Uni.faithful {i : Party} {F : List (Nat × Nat)} {p : Party → Proto (Aby3St bitPrg) (AShare 1)}
    {Q : (Party → AShare 1) → Prop} (h : Uni i F p Q) (x : Bool) : Faithful (fmtSize F) (openedM i F (p i) x) := by
  have hlast : ∀ (s : Aby3St bitPrg) (w : List Bool), w.length = fmtSize F →
      (lastMsg i.prev x ((p i s).replay (msgs i.prev F w))).length = 1 := by
    intro s w hw
    obtain ⟨u, a, t, l, h1, -, h3, h4⟩ := h (fun _ => s) (fun _ => []) w hw
    have := Runs.replay (h4 []) (i := i) (ms := msgs i.prev F w) h3
    rw [withTape_self, withTape_self] at this
    rw [this]
    rfl
  have hl : ∀ (F : List (Nat × Nat)) (w : List Bool), (msgs i.prev F w).length = F.length := by
    intro F
    induction F with
    | nil => intro w; rfl
    | cons f F ih => intro w; rw [msgs, List.length_cons, ih]; rfl
  refine ⟨F.length + 1, fun s => ⟨fun w hw => ?_, fun w w' hw hw' e => ?_⟩⟩
  · rw [openedM, List.length_append, hlast s w hw, hl]
  · exact msgs_inj _ hw hw' (List.append_inj_left e (by rw [hl, hl]))

/-- Two programs (of two worlds) with the same views. -/
def TapeSims {α : Type} (i : Party) (N : Nat) (p p' : Party → Proto (Aby3St bitPrg) α) : Prop :=
  ∃ M T, Faithful N M ∧ TapeSim i N M T p ∧ TapeSim i N M T p'

theorem TapeSims.bind {α β : Type} {i : Party} {N N' : Nat} {p p' : Party → Proto (Aby3St bitPrg) α}
    {k k' : Party → α → Proto (Aby3St bitPrg) β} (h : TapeSims i N p p') (hk : ∃ M T, Faithful N' M ∧ (∀ a : Party → α, TapeSim i N' M T fun j => k j (a j)) ∧
      ∀ a : Party → α, TapeSim i N' M T fun j => k' j (a j)) : TapeSims i (N + N') (fun j => p j >>= k j) fun j => p' j >>= k' j := by
  obtain ⟨M, T, h1, h2, h3⟩ := h
  obtain ⟨M', T', k1, k2, k3⟩ := hk
  exact ⟨_, _, TapeSim.faithful_seq h1 k1, h2.bind k2, h3.bind k3⟩

theorem TapeSims.count {α : Type} {i : Party} {N : Nat} {p p' : Party → Proto (Aby3St bitPrg) α} (h : TapeSims i N p p') {st st' : Party → Aby3St bitPrg}
    (hst : Aby3Ready st) (hst' : Aby3Ready st') (hi : st i = st' i) (n : Nat) (hn : N ≤ n) (v : Log) :
    Verif.viewCount p st i n v = Verif.viewCount p' st' i n v := by
  obtain ⟨M, T, h1, h2, h3⟩ := h
  rw [h2.count h1 hst n hn v, h3.count h1 hst' n hn v, hi]

end Verif
