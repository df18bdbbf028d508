import Verif.Proof.Cost

/-!
# Counting the bytes a party sends: the malicious variant of ABY3
-/

namespace Verif

variable {G : Prg} {K V : Nat} {me : Party} {H : Hash}

theorem PC.zoom {σ σ' α : Type} {R : α → Prop} {n : Nat} {gt : σ → σ'} {st : σ → σ' → σ} {p : Proto σ' α} (h : PC R n p) :
    PC R n (Proto.zoom gt st p) := fun s => (h (gt s)).bind (n' := 0) fun _ ha => .ret ha

theorem Costs.sendSliceAndReceiveVec {x : List (BitVec K)} :
    Costs (fun a => a.length = x.length) (x.length * byteLen K) (Verif.sendSliceAndReceiveVec me x) := by
  have h : Costs (fun a => a.length = x.length) (_ + 0) (Verif.sendSliceAndReceiveVec me x) :=
    sendAndReceive.bind fun _ _ => .ofExcept fun _ h => Alike.vec_len h
  rw [ringSliceToBytes_length] at h
  exact h

theorem Costs.broadcast {m : Bytes} : Costs (fun _ => True) (2 * m.length) (Verif.broadcast me m) := by
  have e : 2 * m.length = m.length + (m.length + 0) := by omega
  rw [e]
  fin_cases me
  · exact .send (d := 1) (.send (d := 2) (.recv (s := 1) fun _ => .recv (s := 2) fun _ => .ret trivial))
  · exact .send (d := 0) (.send (d := 2) (.recv (s := 0) fun _ => .recv (s := 2) fun _ => .ret trivial))
  · exact .send (d := 0) (.send (d := 1) (.recv (s := 0) fun _ => .recv (s := 1) fun _ => .ret trivial))

theorem Costs.hashZeroVerify {x : List (AShare K)} : Costs (fun _ => True) 128 (Verif.hashZeroVerify H me x) := by
  have hb := Costs.broadcast (me := me) (m := H.h (x.flatMap (zeroBytes me)))
  rw [H.len] at hb
  refine hb.bind (n' := 0 + (0 + (0 + 0))) fun _ _ => ?_
  refine (Costs.ofExcept (R := fun _ => True) fun _ _ => trivial).bind fun _ _ => ?_
  refine (Costs.ofExcept (R := fun _ => True) fun _ _ => trivial).bind fun _ _ => ?_
  refine (Costs.ofExcept (R := fun _ => True) fun _ _ => trivial).bind fun _ _ => ?_
  split
  · exact .fail
  · exact .ret trivial

namespace Jmp

theorem cost_genRand : PC Anything 0 (genRand (G := G) K) := PC.step

theorem cost_genRandMany : ∀ n, PC (Len n) 0 (genRandMany (G := G) K n)
  | 0 => PC.pure rfl
  | n + 1 => cost_genRand.bind0 fun _ _ => (cost_genRandMany n).bind0 fun _ h => PC.pure (by simpa [Len] using h)

theorem cost_sendReceive (x y : BitVec K) : PC Anything (byteLen K) (jmpSendReceive (G := G) me x y) := by
  refine PC.step.bind0 fun _ _ => ?_
  refine (PC.net (R := Anything) (n := byteLen K) ?_).bind (n' := 0) (fun _ _ => ?_) rfl
  · have h : Costs (fun _ => True) (_ + 0) (sendValueNext me x) := .send (.ret trivial)
    simpa using h
  · refine (PC.net (R := Anything) (n := 0) (.recv fun _ => .ofExcept fun _ _ => trivial)).bind0 fun _ _ => PC.step

theorem cost_sendReceiveMany (x y : List (BitVec K)) :
    PC (Len x.length) (x.length * byteLen K) (jmpSendReceiveMany (G := G) me x y) := by
  refine PC.step.bind0 fun _ _ => ?_
  refine (PC.net (R := Anything) (n := x.length * byteLen K) ?_).bind (n' := 0) (fun _ _ => ?_) rfl
  · have h : Costs (fun _ => True) (_ + 0) (sendVecNext me x) := .send (.ret trivial)
    rw [ringSliceToBytes_length] at h
    exact h
  · refine (PC.net (R := Len x.length) (n := 0) (.recv fun _ => .ofExcept fun _ h => Alike.vec_len h)).bind0 fun v hv => ?_
    exact fun s => .ret hv

theorem cost_verify : PC Anything 64 (jmpVerify (G := G) H me) := by
  refine PC.bind (R := fun a => a.1.length = 64) (n := 0) (n' := 64) (fun s => .ret (H.len _)) ?_ rfl
  rintro ⟨a, b⟩ ha
  refine (PC.net (R := Anything) (n := 64) ?_).bind (n' := 0) (fun _ _ => ?_) rfl
  · have h : Costs (fun _ => True) (_ + 0) (sendPrev me a) := .send (.ret trivial)
    rw [show a.length = 64 from ha] at h
    exact h
  · refine (PC.net (R := Anything) (n := 0) (.recv fun _ => .ret trivial)).bind0 fun _ _ => ?_
    exact PC.guard fun _ => PC.pure trivial

theorem cost_coin : PC Anything 32 (coin (G := G) me) := by
  refine PC.bind (R := fun a => a.2.length = 32) (n := 0) (n' := 32) (fun s => .ret (G.genSeed_length _)) ?_ rfl
  rintro ⟨a, b⟩ hb
  have h := cost_sendReceiveMany (G := G) (me := me) (K := 8) b a
  rw [show b.length = 32 from hb] at h
  exact h.bind (n' := 0) (fun _ _ => PC.pure trivial) rfl

theorem cost_reconstruct (a : AShare K) : PC Anything (byteLen K) (reconstruct (G := G) me a) :=
  (cost_sendReceive _ _).bind (n' := 0) (fun _ _ => PC.pure trivial) rfl

theorem cost_reconstructMany {a : List (AShare K)} {n : Nat} (h : a.length = n) :
    PC (Len n) (n * byteLen K) (reconstructMany (G := G) me a) := by
  subst h
  have h := cost_sendReceiveMany (G := G) (me := me) (a.map (·.b)) (a.map (·.a))
  rw [List.length_map] at h
  exact h.bind (n' := 0) (fun _ hr => PC.pure (by simp only [Len] at hr; simp [Len, hr])) rfl

theorem cost_reconstructBinaryMany {a : List (AShare K)} {n : Nat} (h : a.length = n) :
    PC (Len n) (n * byteLen K) (reconstructBinaryMany (G := G) me a) := by
  subst h
  have h := cost_sendReceiveMany (G := G) (me := me) (a.map (·.b)) (a.map (·.a))
  rw [List.length_map] at h
  exact h.bind (n' := 0) (fun _ hr => PC.pure (by simp only [Len] at hr; simp [Len, hr])) rfl

theorem cost_open (a : AShare K) : PC Anything (64 + byteLen K + 64) (openShare (G := G) H me a) :=
  cost_verify.bind (fun _ _ => (cost_sendReceive _ _).bind (fun _ _ => cost_verify.bind (n' := 0) (fun _ _ =>
    PC.pure trivial) rfl) rfl) (by ring)

theorem cost_openBit (a : AShare 1) : PC Anything 129 (openBit (G := G) H me a) :=
  cost_verify.bind (fun _ _ => (cost_sendReceive _ _).bind (fun _ _ => cost_verify.bind (n' := 0) (fun _ _ =>
    PC.pure trivial) rfl) rfl) rfl

end Jmp

namespace MalAby3

open Jmp

theorem cost_reshare {x : List (BitVec K)} {n : Nat} (h : x.length = n) :
    PC (Len n) (n * byteLen K)
      (do let r ← (Proto.net (sendSliceAndReceiveVec me x) : Proto (JmpSt G) _); pure (List.zipWith AShare.mk x r)) := by
  subst h
  exact (PC.net Costs.sendSliceAndReceiveVec).bind (n' := 0) (fun _ hr => PC.pure (by simp [Len, hr])) rfl

theorem cost_abyMulMany {a b : List (AShare K)} {n : Nat} (h : a.length = n) (h' : b.length = n) :
    PC (Len n) (n * byteLen K) (abyMulMany (G := G) me a b) :=
  (PC.zoom (Aby3.cost_mulLoop _)).bind0 fun _ hr => cost_reshare (by simpa [Len, h, h'] using hr)

theorem cost_abyDotMany {a b : List (List (AShare K))} {n : Nat} (h : a.length = n) :
    PC (Len n) (n * byteLen K) (abyDotMany (G := G) me a b) :=
  PC.guard fun hc => (PC.zoom (Aby3.cost_dotLoop _)).bind0 fun _ hr => cost_reshare (by
    push Not at hc
    simpa [Len, h, ← hc] using hr)

theorem cost_coinElem : PC Anything 32 (coinElem (G := G) V me) :=
  cost_coin.bind (n' := 0) (fun _ _ => PC.pure trivial) rfl

theorem cost_getMulTripleMany (len : Nat) :
    PC (fun x => Len len x.1 ∧ Len len x.2.1 ∧ Len len x.2.2) (3 * len * byteLen V + 32 + 64 + 128)
      (getMulTripleMany (G := G) H V K me len) := by
  refine PC.guard fun _ => ?_
  refine (cost_genRandMany len).bind0 fun a ha => (cost_genRandMany len).bind0 fun b hb =>
    (cost_genRandMany len).bind0 fun a' ha' => ?_
  simp only [Len] at ha hb ha'
  refine (cost_abyMulMany (n := 2 * len) (by simp [ha, ha']; omega) (by simp [hb]; omega)).bind (n' := 32 + (len * byteLen V +
    (64 + (128 + 0)))) (fun cs hcs => ?_) (by ring)
  refine cost_coinElem.bind (fun _ _ => ?_) rfl
  refine (cost_reconstructMany (n := len) (by simp [ha, ha'])).bind (fun _ _ => ?_) rfl
  refine cost_verify.bind (fun _ _ => ?_) rfl
  refine (PC.net Costs.hashZeroVerify).bind (fun _ _ => PC.pure ?_) rfl
  simp only [Len] at hcs ⊢
  exact ⟨by simpa using ha, by simpa using hb, by simp [hcs]; omega⟩

theorem cost_genRandVecs : ∀ (ns : List Nat), PC (fun x => x.map List.length = ns) 0 (genRandVecs (G := G) V ns)
  | [] => PC.pure rfl
  | n :: ns => (cost_genRandMany n).bind0 fun _ h => (cost_genRandVecs ns).bind0 fun _ hs => PC.pure (by
      simp only [Len] at h; simp [h, hs])

theorem zipWith_flatten {X Y Z : Type} (f : X → Y → Z) : ∀ {u : List (List X)} {v : List (List Y)},
    u.map List.length = v.map List.length → (List.zipWith (List.zipWith f) u v).flatten.length = (u.map List.length).sum
  | [], [], _ => rfl
  | [], _ :: _, h => by simp at h
  | _ :: _, [], h => by simp at h
  | a :: u, b :: v, h => by
      simp only [List.map_cons, List.cons.injEq] at h
      simp [zipWith_flatten f h.2, h.1]

/-- Pairs of vectors of equal lengths. -/
theorem cost_dotMany {a b : List (List (AShare K))} {n : Nat} (h : a.length = n) (hl : a.map List.length = b.map List.length) :
    PC (Len n) (malDotBytes (verifWidth K) n (a.map List.length).sum) (dotMany (G := G) H me a b) := by
  refine PC.guard fun _ => PC.guard fun _ => ?_
  refine (cost_genRandVecs _).bind0 fun a' ha' => ?_
  have hm : ∀ x : List (List (AShare K)), (x.map fun l => l.map (·.toVerif (verifWidth K))).map List.length = x.map List.length := by
    intro x; simp [List.map_map, Function.comp_def]
  rw [hm] at ha'
  have hal : a'.length = n := by
    have := congrArg List.length ha'
    have h2 := congrArg List.length hl
    simp only [List.length_map] at this h2
    omega
  refine (cost_abyDotMany (n := 2 * n) (by simp [hal, h]; omega)).bind
    (n' := 32 + ((a.map List.length).sum * byteLen (verifWidth K) + (64 + (0 + (128 + 0))))) (fun cs hcs => ?_)
      (by unfold malDotBytes; ring)
  refine cost_coinElem.bind (fun _ _ => ?_) rfl
  refine (cost_reconstructMany ?_).bind (fun _ _ => ?_) rfl
  · rw [zipWith_flatten, hm]
    rw [hm, ha', hl]
  refine cost_verify.bind (fun _ _ => ?_) rfl
  refine (PC.lift (R := Anything) fun _ _ => trivial).bind (fun _ _ => ?_) rfl
  refine (PC.net Costs.hashZeroVerify).bind (fun _ _ => PC.pure ?_) rfl
  simp only [Len] at hcs ⊢
  simp [hcs, h]; omega

theorem pack_length (hK : K ≠ 0) {x : List (AShare 1)} {n : Nat} (h : x.length = K * n) : (pack K x).length = n := by
  have := (Uni.chunksOf_rows hK n x (by rw [h, Nat.mul_comm])).1
  simpa [pack] using this

theorem cost_andMany (hK : K ≠ 0) {a b : List (AShare K)} {n : Nat} (h : a.length = n) :
    PC (Len n) (malAndBytes K n) (andMany (G := G) H me a b) := by
  refine PC.guard fun hc => ?_
  push Not at hc
  have hb : b.length = n := by rw [← hc, h]
  rw [h]
  refine (cost_getMulTripleMany _).bind (n' := 2 * n * byteLen K + 0) ?_ ?_
  · rintro ⟨x, y, z⟩ ⟨hx, hy, hz⟩
    have hx := pack_length hK hx
    have hy := pack_length hK hy
    have hz := pack_length hK hz
    refine (cost_reconstructBinaryMany (n := 2 * n) (by simp [h, hb, hx, hy]; omega)).bind (fun r hr => PC.pure ?_) rfl
    simp only [Len] at hr ⊢
    simp [h, hb, hz, hr]; omega
  · rw [show byteLen (verifWidth 1) = 8 from rfl]; unfold malAndBytes malTripleBytes; ring

theorem cost_xorMany {a b : List (AShare K)} {n : Nat} (h : a.length = n) :
    PC (Len n) 0 (Proto.lift ((binOps G H K me).xorMany a b) : Proto (JmpSt G) _) := PC.lift fun x hx => by
  unfold BinOps.xorMany at hx
  split at hx
  · cases hx
  · rename_i hc
    push Not at hc
    cases hx; simp [Len, ← hc, h]

theorem cost_orMany (hK : K ≠ 0) {a b : List (AShare K)} {n : Nat} (h : a.length = n) :
    PC (Len n) (malAndBytes K n) ((binOps G H K me).orMany a b) :=
  PC.guard fun _ => (cost_andMany hK h).bind (n' := 0) (fun _ hy => (cost_xorMany h).bind0 fun _ _ => cost_xorMany hy) rfl

theorem cost_koggeLoopMany (hK : K ≠ 0) {len : Nat} : ∀ (n i : Nat) {p g : List (AShare K)}, p.length = len → g.length = len →
    PC (fun x => Len len x.1 ∧ Len len x.2) (n * malAndBytes K (2 * len)) ((binOps G H K me).koggeLoopMany len n i p g)
  | 0, _, _, _, hp, hg => PC.cast (PC.pure ⟨hp, hg⟩) (show 0 = 0 * _ by simp)
  | n + 1, i, p, g, hp, hg =>
      (cost_andMany hK (n := 2 * len) (by simp [hp]; omega)).bind (fun _ hr => (cost_xorMany hg).bind0 fun _ hg' =>
        cost_koggeLoopMany hK n (i + 1) (by simp only [Len] at hr; simp [hr]; omega) hg')
        (show _ + n * malAndBytes K (2 * len) = (n + 1) * malAndBytes K (2 * len) by ring)

theorem cost_binaryAdd3Many (hK : K ≠ 0) {x1 x2 x3 : List (AShare K)} {n : Nat} (h1 : x1.length = n) :
    PC (Len n) (malMsbBytes K n) ((binOps G H K me).binaryAdd3Many K x1 x2 x3) := by
  unfold BinOps.binaryAdd3Many
  refine PC.guard fun hc => ?_
  push Not at hc
  have h2 : x2.length = n := by rw [← hc.1, h1]
  rw [h1]
  refine (cost_xorMany h2).bind0 fun _ h23 => (cost_xorMany h1).bind0 fun s hs => (cost_xorMany h1).bind0 fun _ h13 => ?_
  refine (cost_andMany hK h13).bind (n' := malAndBytes K n + (ceilLog2 K * malAndBytes K (2 * n) + 0)) (fun _ hc => ?_)
    (by unfold malMsbBytes; ring)
  refine (cost_xorMany hc).bind0 fun _ hc => (cost_xorMany hs).bind0 fun _ hp => ?_
  refine (cost_andMany hK hs).bind (fun _ hg => ?_) rfl
  refine (cost_koggeLoopMany hK _ _ hp hg).bind ?_ rfl
  rintro ⟨_, _⟩ ⟨_, _⟩
  exact cost_xorMany hp

theorem cost_getMsbMany (hK : K ≠ 0) {a : List (AShare K)} {n : Nat} (h : a.length = n) :
    PC (Len n) (malMsbBytes K n) (getMsbMany (G := G) H me a) :=
  (cost_binaryAdd3Many hK (by simpa using h)).bind (n' := 0) (fun _ hr => PC.pure (by simpa [Len] using hr)) rfl

theorem cost_orChunks : ∀ (x : List (List (AShare 1) × List (AShare 1))),
    PC (Len (x.map fun p => p.1.length).sum) (26 * (x.map fun p => p.1.length).sum + 224 * x.length)
      ((binOps G H 1 me).orChunks x)
  | [] => PC.pure (R := Len 0) rfl
  | (_, _) :: x => (cost_orMany (by decide) rfl).bind (fun _ hr => (cost_orChunks x).bind (n' := 0) (fun _ hs => PC.pure (by
      simp only [Len] at hr hs; simp [Len, hr, hs])) rfl) (by
        simp only [malAndBytes, malTripleBytes, show byteLen 1 = 1 from rfl, List.map_cons, List.sum_cons, List.length_cons]; ring)

theorem cost_orTreeLoop (cs : Nat) : ∀ (num : Nat) {x : List (AShare 1)}, x.length = num →
    PC Anything (26 * (num - 1) + 224 * orTreeCalls cs num) ((binOps G H 1 me).orTreeLoop cs num x) := by
  intro num
  induction num using Nat.strong_induction_on with
  | _ num ih =>
      intro x h
      unfold BinOps.orTreeLoop
      unfold orTreeCalls
      by_cases hn : num > 1
      · rw [if_pos hn, if_pos hn]
        refine PC.guard fun _ => ?_
        refine (PC.lift (R := fun a => cs ≠ 0 ∧ a = chunksOf cs (x.take (num / 2))) fun a ha => ?_).bind0 ?_
        · unfold chunksE at ha
          split at ha
          · cases ha
          · cases ha; exact ⟨by assumption, rfl⟩
        rintro _ ⟨hcs, rfl⟩
        refine (PC.lift (R := fun a => a = chunksOf cs ((x.drop (num / 2)).take (num / 2))) fun a ha => ?_).bind0 ?_
        · unfold chunksE at ha
          split at ha
          · cases ha
          · cases ha; rfl
        rintro _ rfl
        have hs : SL (x.take (num / 2)) ((x.drop (num / 2)).take (num / 2)) := by
          simp only [SL, List.length_take, List.length_drop]; omega
        have hl : (((chunksOf cs (x.take (num / 2))).zip (chunksOf cs ((x.drop (num / 2)).take (num / 2)))).map
            fun p => p.1.length).sum = num / 2 := by
          rw [Aby3.zip_sum (Shape.chunks cs hs), chunksOf_flatten hcs, List.length_take]; omega
        have hz : ((chunksOf cs (x.take (num / 2))).zip (chunksOf cs ((x.drop (num / 2)).take (num / 2)))).length
            = (num / 2 + cs - 1) / cs := by
          rw [List.length_zip, chunksOf_length hcs, chunksOf_length hcs, ← show _ = _ from hs, Nat.min_self, List.length_take,
            Nat.min_eq_left (by omega)]
        refine (cost_orChunks _).bind (fun r hr => ih (num / 2 + num % 2) (by omega) ?_) ?_
        · simp only [Len, hl] at hr
          simp only [List.length_append, List.length_drop, hr]; omega
        · rw [hl, hz]; omega
      · rw [if_neg hn, if_neg hn]
        exact (PC.pure trivial).cast (by omega)

theorem cost_reduceBinaryOr (cs : Nat) {a : List (AShare 1)} {n : Nat} (h : a.length = n) :
    PC Anything (26 * (n - 1) + 224 * orTreeCalls (cs * 128) n) (reduceBinaryOr (G := G) H me a cs) := by
  refine (PC.lift (R := fun c => c = cs * 128) fun c hc => ?_).bind0 ?_
  · unfold usizeE at hc
    split at hc
    · cases hc; rfl
    · cases hc
  rintro _ rfl
  unfold BinOps.orTree
  rw [h]
  exact (cost_orTreeLoop _ n h).bind (n' := 0) (fun _ _ => PC.idx) rfl

theorem maskedVecs_rect {a : List (AShare K)} : ∀ {x : List (List (AShare K) × IrisCodeArray)} {r},
    maskedVecs (AShare.zero K) a x = .ok r → Rect x.length 12800 r.1 ∧ Rect x.length 12800 r.2
  | [], _, h => by cases h; exact ⟨⟨rfl, by simp⟩, rfl, by simp⟩
  | (b, m) :: x, _, h => by
      unfold maskedVecs at h
      split at h
      · cases h
      · rename_i hc
        push Not at hc
        obtain ⟨⟨_, _⟩, e, h⟩ := OpsAlike.bindE h
        cases h
        have hz : ∀ l : List (AShare K), l.length = irisCodeSize → (zeroUnmasked (AShare.zero K) l m.bits).length = 12800 := by
          intro l hl
          rw [zeroUnmasked, List.length_zipWith, C17_bits, App.bits_length, hl]; rfl
        obtain ⟨⟨h1, h2⟩, h3, h4⟩ := maskedVecs_rect e
        refine ⟨⟨by simp [h1], ?_⟩, by simp [h3], ?_⟩
        · intro r hr
          rcases List.mem_cons.1 hr with rfl | hr
          · exact hz _ hc.1
          · exact h2 r hr
        · intro r hr
          rcases List.mem_cons.1 hr with rfl | hr
          · exact hz _ hc.2
          · exact h4 r hr

theorem rect_lengths {X : Type} {m w : Nat} {l : List (List X)} (h : Rect m w l) : l.map List.length = List.replicate m w := by
  rw [List.map_congr_left (g := fun _ => w) h.2, List.map_const', h.1]

theorem cost_maskedDotMany {a : List (AShare K)} {b : List (List (AShare K))} {m : List IrisCodeArray} {n : Nat}
    (h : b.length = n) (h' : m.length = n) :
    PC (Len n) (malDotBytes (verifWidth K) n (12800 * n))
      (defaultMaskedDotMany (AShare.zero K) (dotMany (G := G) H me) a b m) := by
  refine (PC.lift (R := fun r => Rect n 12800 r.1 ∧ Rect n 12800 r.2) fun r hr => ?_).bind0 ?_
  · have := maskedVecs_rect hr
    rwa [List.length_zip, h, h', Nat.min_self] at this
  rintro ⟨u, v⟩ ⟨hu, hv⟩
  have hd := cost_dotMany (G := G) (H := H) (me := me) (a := u) (b := v) hu.1 (by rw [rect_lengths hu, rect_lengths hv])
  rw [rect_lengths hu, List.sum_replicate_nat, Nat.mul_comm] at hd
  exact hd

/-! ## The protocol -/

theorem cost_compareIrisMany (signed : Bool) (hK : K ≠ 0) {a : List (AShare K)} {b : List (List (AShare K))} {mA : IrisCodeArray}
    {m : List IrisCodeArray} :
    PC (Len b.length) (malDotBytes (verifWidth K) b.length (12800 * b.length) + malMsbBytes K b.length)
      (Iris.compareIrisMany (ops G H K signed me) a b mA m) :=
  PC.guard fun hc => (PC.lift (R := fun r => r.length = m.length) fun _ hx => OpsAlike.combineAll_len hx).bind0 fun c hl => by
    push Not at hc
    have hcl : c.length = b.length := by rw [hl, hc.1]
    refine PC.bind (R := Len b.length) (n := malDotBytes (verifWidth K) b.length (12800 * b.length)) ?_ (fun d hd => ?_) rfl
    · refine (cost_maskedDotMany rfl hcl).bind (n' := 0) (fun d hd => PC.lift fun r hr => ?_) rfl
      rw [Len, OpsAlike.hammingLoop_len hr]
      simp only [Len] at hd
      simp [hd, hcl]
    · refine PC.guard fun _ => PC.get.bind0 fun _ _ => ?_
      refine (PC.lift (R := Len b.length) fun r hr => ?_).bind0 fun _ hr => cost_getMsbMany hK hr
      rw [Len, OpsAlike.diffLoop_len hr]
      simp only [Len] at hd
      simp [hd, hcl]

theorem cost_chunkLoop (signed : Bool) (hK : K ≠ 0) {a : List (AShare K)} {mA : IrisCodeArray} :
    ∀ (x : List (List (List (AShare K)) × List IrisCodeArray)),
      PC (Len (x.map fun p => p.1.length).sum)
        (x.map fun p => malDotBytes (verifWidth K) p.1.length (12800 * p.1.length) + malMsbBytes K p.1.length).sum
        (Iris.chunkLoop (ops G H K signed me) a mA x)
  | [] => PC.pure rfl
  | (_, _) :: x => (cost_compareIrisMany signed hK).bind (fun _ hr => (cost_chunkLoop signed hK x).bind (n' := 0) (fun _ hs =>
      PC.pure (by simp only [Len] at hr hs; simp [Len, hr, hs])) rfl) (by simp)

theorem cost_query (signed : Bool) (hK : K ≠ 0) {a : List (AShare K)} {b : List (List (AShare K))} {mA : IrisCodeArray}
    {m : List IrisCodeArray} (cs : Nat) :
    PC Anything (malQueryBytes K cs (chunkSizes b.length cs)) (Iris.irisInDb (ops G H K signed me) a b mA m cs) := by
  unfold Iris.irisInDb
  refine PC.guard fun hc => ?_
  push Not at hc
  refine (PC.lift (R := Anything) fun _ _ => trivial).bind0 fun _ _ => ?_
  refine (PC.pure (R := Anything) trivial).bind0 fun _ _ => ?_
  refine (PC.lift (R := fun x => cs ≠ 0 ∧ x = chunksOf cs b) fun x hx => ?_).bind0 ?_
  · unfold chunksE at hx
    split at hx
    · cases hx
    · cases hx; exact ⟨by assumption, rfl⟩
  rintro _ ⟨hcs, rfl⟩
  refine (PC.lift (R := fun x => x = chunksOf cs m) fun x hx => ?_).bind0 ?_
  · unfold chunksE at hx
    split at hx
    · cases hx
    · cases hx; rfl
  rintro _ rfl
  have hl : (chunksOf cs b).length ≤ (chunksOf cs m).length := by rw [chunksOf_length hcs, chunksOf_length hcs, hc.1]
  have hz : ∀ f : Nat → Nat, (((chunksOf cs b).zip (chunksOf cs m)).map fun p => f p.1.length)
      = (chunkSizes b.length cs).map f := fun f => by
    rw [← Aby3.chunks_sizes hcs b, List.map_map]
    conv_rhs => rw [← List.map_fst_zip hl, List.map_map]
    rfl
  refine (cost_chunkLoop signed hK _).bind (n' := 26 * (b.length - 1) + 224 * orTreeCalls (cs * 128) b.length + 129)
    (fun r hr => ?_) ?_
  · rw [hz fun n => n, List.map_id', Aby3.chunkSizes_sum] at hr
    refine (cost_reduceBinaryOr cs hr).bind (n' := 129) (fun _ _ => ?_) rfl
    refine (PC.unwrap (PC.pure (R := Anything) trivial)).bind0 fun _ _ => cost_openBit _
  · rw [hz fun n => malDotBytes (verifWidth K) n (12800 * n) + malMsbBytes K n, malQueryBytes, Aby3.chunkSizes_sum]; omega

end MalAby3

end Verif
