import Verif.SplittingWriter
/-!
# Proofs about `SplittingWriter`

`Sp.callAll_spec`: after any sequence of calls, closed shards, the open shard, the buffer and scratch have together exactly the data written, or the writer is
failed or going to fail.
-/
namespace Riegeli.Wtr

theorem takeF_flatten (n : Nat) (fs : List Bytes) : (takeF n fs).flatten = fs.flatten.take n := by
  induction fs generalizing n with
  | nil => simp [takeF]
  | cons f fs ih => rw [takeF, List.flatten_cons, List.flatten_cons, ih, List.take_append]

theorem dropF_flatten (n : Nat) (fs : List Bytes) : (dropF n fs).flatten = fs.flatten.drop n := by
  induction fs generalizing n with
  | nil => simp [dropF]
  | cons f fs ih => rw [dropF, List.flatten_cons, List.flatten_cons, ih, List.drop_append]

/-- The function is not supported by a `SplittingWriter`. -/
def WOp.unsupported : WOp → Bool
  | .seek _ => true
  | .size => true
  | .truncate _ => true
  | .readMode _ => true
  | _ => false

namespace Sp
variable {σ : Type} {W : WriterOps σ} {close : σ → Bool} {empty : Bool} {room : Nat → Nat → Nat → Nat}
variable (view : σ → Bytes) (Inv0 : σ → Prop) (W) (empty) (F : Bool) (N : List Nat) (C : Prop)

/-- Data in closed shards. -/
def base (s : Sp σ) : Bytes := (s.closed.map (fun p => view p.1)).flatten

/-- What holds for shards to be opened and for closed ones. `F` says that all closed shards are full. -/
structure Parts (s : Sp σ) : Prop where
  ok : s.ok = true
  rest : ∀ p ∈ s.rest, Inv0 p.1 ∧ view p.1 = [] ∧ W.pos p.1 = 0 ∧ 0 < p.2
  closed : ∀ p ∈ s.closed, (view p.1).length ≤ p.2 ∧ (empty = false → view p.1 ≠ []) ∧ (F = true → (view p.1).length = p.2)

/-- No shard is open, nothing is buffered; `D` are all data written. -/
structure Gap (D : Bytes) (s : Sp σ) : Prop where
  parts : s.Parts W empty view Inv0 F
  lims : s.closed.map (·.2) ++ s.rest.map (·.2) = N
  buf : s.buf = [] ∧ s.len = 0 ∧ s.scratch = none
  dat : s.base view = D
  start : s.startPos = D.length

/-- The shard `t` is open, nothing is buffered; `D` are all data written. -/
structure Mid (D : Bytes) (t : σ) (s : Sp σ) : Prop where
  parts : s.Parts W empty view Inv0 F
  lims : s.closed.map (·.2) ++ s.limit :: s.rest.map (·.2) = N
  buf : s.buf = [] ∧ s.len = 0 ∧ s.scratch = none
  inv : Inv0 t
  okT : W.ok t = true
  posT : W.pos t = (view t).length
  dat : s.base view ++ view t = D
  start : s.startPos = D.length
  lim : s.limitPos = (s.base view).length + s.limit
  pos : 0 < s.limit
  le : s.startPos ≤ s.limitPos

/-- The invariant; `D` are all data written. -/
structure Live (D : Bytes) (s : Sp σ) : Prop where
  parts : s.Parts W empty view Inv0 F
  none : s.shard = none → s.buf = [] ∧ s.len = 0 ∧ s.base view ++ s.fresh = D ∧ s.startPos = (s.base view).length ∧
    s.closed.map (·.2) ++ s.rest.map (·.2) = N
  some : ∀ t, s.shard = some t → s.closed.map (·.2) ++ s.limit :: s.rest.map (·.2) = N ∧ Inv0 t ∧ W.ok t = true ∧ W.pos t = (view t).length ∧
    s.base view ++ view t ++ s.buf ++ s.fresh = D ∧ s.startPos = (s.base view ++ view t).length ∧ s.limitPos = (s.base view).length + s.limit ∧
    0 < s.limit ∧ s.buf.length ≤ s.len ∧ s.len ≤ W.avail t ∧ s.startPos + s.len ≤ s.limitPos ∧ (empty = false → view t ++ s.buf ≠ [])

/-- The writer failed. `C` is a cause of a failure other than that all shards were opened. -/
def Dead (s : Sp σ) : Prop := s.ok = false ∧ s.buf = [] ∧ s.len = 0 ∧ s.scratch = none ∧ (s.rest = [] ∨ C)

/-- The open shard `t` failed. -/
def MidBad (t : σ) (s : Sp σ) : Prop := Inv0 t ∧ W.ok t = false ∧ s.ok = true ∧ s.buf = [] ∧ s.len = 0 ∧ s.scratch = none

/-- The writer failed, or its open shard failed. -/
def Bad (s : Sp σ) : Prop := Dead C s ∨ ∃ t, s.shard = some t ∧ MidBad W Inv0 t s

/-- Success, or failure. -/
def Res (D : Bytes) (r : Bool × Sp σ) : Prop := (Live W empty view Inv0 F N D r.2 ∧ r.1 = true) ∨ (Bad W Inv0 C r.2 ∧ r.1 = false)

variable {W} {view} {Inv0} {empty} {F} {N} {C} {dest : σ → Bytes} (L : W.Lawful view dest Inv0) (hclose : ∀ t, close t = true → W.ok t = true)
  (hC : ∀ t, Inv0 t → W.ok t = false ∨ close t = false → C)

theorem fail_dead (s : Sp σ) (h : s.rest = [] ∨ C) : Dead C s.fail := ⟨rfl, rfl, rfl, rfl, h⟩

theorem Live.pos {D : Bytes} {s : Sp σ} (h : Live W empty view Inv0 F N D s) : s.pos = D.length := by
  unfold Sp.pos
  cases hs : s.shard with
  | none =>
    obtain ⟨a1, a2, a3, a4, a5⟩ := h.none hs
    rw [← a3, a4, a1, List.nil_append, List.length_append]
  | some t =>
    obtain ⟨-, -, -, -, a5, a6, -⟩ := h.some t hs
    rw [← a5, a6]
    simp only [List.length_append]
    omega

theorem fresh_none {s : Sp σ} (h : s.scratch = none) : s.fresh = [] := by unfold fresh; rw [h]

theorem bad_avail {s : Sp σ} (h : Bad W Inv0 C s) : s.avail = 0 ∧ s.scratch = none ∧ s.buf = [] := by
  have : s.scratch = none ∧ s.len = 0 ∧ s.buf = [] := by
    rcases h with ⟨-, h2, h3, h4, -⟩ | ⟨t, -, -, -, -, h4, h5, h6⟩
    · exact ⟨h4, h3, h2⟩
    · exact ⟨h6, h5, h4⟩
  obtain ⟨h1, h2, h3⟩ := this
  refine ⟨?_, h1, h3⟩
  unfold avail
  rw [h1]
  dsimp only
  omega

theorem makeBuffer_dead {t : σ} (s : Sp σ) (h : W.ok t = false) (hc : C) : Dead C (s.makeBuffer W t) := by
  unfold makeBuffer
  dsimp only
  rw [if_neg (by rw [h]; nofun)]
  exact fail_dead _ (.inr hc)

theorem makeBuffer_live {D : Bytes} {t : σ} {s : Sp σ} (h : Mid W empty view Inv0 F N D t s) (hne : empty = false → view t ≠ []) :
    Live W empty view Inv0 F N D (s.makeBuffer W t) ∧ (s.makeBuffer W t).avail = min (W.avail t) (s.limitPos - s.startPos) := by
  unfold makeBuffer
  dsimp only
  rw [if_pos h.okT]
  refine ⟨⟨⟨h.parts.ok, h.parts.rest, h.parts.closed⟩, nofun, fun u hu => ?_⟩, ?_⟩
  · cases hu
    have hf : (({ s with shard := some t, buf := [], len := min (W.avail t) (s.limitPos - s.startPos) } : Sp σ)).fresh = [] := fresh_none h.buf.2.2
    have hle := h.le
    refine ⟨h.lims, h.inv, h.okT, h.posT, ?_, ?_, h.lim, h.pos, Nat.zero_le _, Nat.min_le_left _ _, ?_, ?_⟩
    · rw [hf, List.append_nil]
      show s.base view ++ view t ++ [] = D
      rw [List.append_nil]
      exact h.dat
    · show s.startPos = (s.base view ++ view t).length
      rw [h.dat]
      exact h.start
    · show s.startPos + min (W.avail t) (s.limitPos - s.startPos) ≤ s.limitPos
      omega
    · intro he
      show view t ++ [] ≠ []
      rw [List.append_nil]
      exact hne he
  · unfold avail
    dsimp only
    rw [h.buf.2.2]
    rfl

include L in
theorem openShard_spec {D : Bytes} {s : Sp σ} (h : Gap W empty view Inv0 F N D s) :
    ((s.openShard W).1 = true ∧ (s.openShard W).2.rest.length + 1 = s.rest.length ∧ ∃ u, (s.openShard W).2.shard = some u ∧
      (Mid W empty view Inv0 F N D u (s.openShard W).2 ∧ (s.openShard W).2.startPos < (s.openShard W).2.limitPos ∨ MidBad W Inv0 u (s.openShard W).2)) ∨
    ((s.openShard W).1 = false ∧ Dead C (s.openShard W).2) := by
  unfold openShard
  cases hr : s.rest with
  | nil => exact .inr ⟨rfl, fail_dead _ (.inl hr)⟩
  | cons u us =>
    left
    dsimp only
    refine ⟨rfl, rfl, _, rfl, ?_⟩
    obtain ⟨a1, a2, a3, a4⟩ := h.parts.rest u (by rw [hr]; exact List.mem_cons_self)
    generalize ({ s with rest := us, limit := u.2, limitPos := s.startPos + u.2 } : Sp σ).shardHint = k
    obtain ⟨b1, b2, b3, -⟩ := L.setHint (some k) u.1 a1
    cases ho : W.ok (W.setHint (some k) u.1) with
    | false => exact .inr ⟨b1, ho, h.parts.ok, h.buf⟩
    | true =>
      obtain ⟨c1, c2⟩ := b2 ho
      have hl := h.lims
      rw [hr, List.map_cons] at hl
      have e : s.startPos = (s.base view).length := by rw [h.start, h.dat]
      refine .inl ⟨⟨⟨h.parts.ok, fun p hp => h.parts.rest p (by rw [hr]; exact List.mem_cons_of_mem _ hp), h.parts.closed⟩, hl, h.buf, b1, ho, ?_, ?_, h.start, ?_, a4, ?_⟩, ?_⟩
      · rw [c1, c2, a2, a3]; rfl
      · rw [c1, a2, List.append_nil]
        exact h.dat
      · show s.startPos + u.2 = (s.base view).length + u.2
        rw [e]
      · show s.startPos ≤ s.startPos + u.2
        omega
      · show s.startPos < s.startPos + u.2
        omega

include hclose hC in
theorem closeShard_bad {t : σ} {s : Sp σ} (hi : Inv0 t) (h : W.ok t = false) : (s.closeShard close t).1 = false ∧ Dead C (s.closeShard close t).2 := by
  unfold closeShard
  rw [if_neg (fun hc => Bool.false_ne_true (h.symm.trans (hclose t hc)))]
  exact ⟨rfl, fail_dead _ (.inr (hC t hi (.inl h)))⟩

include hC in
theorem closeShard_spec {D : Bytes} {t : σ} {s : Sp σ} (h : Mid W empty view Inv0 F N D t s) (hne : empty = false → view t ≠ [])
    (hF : F = true → (view t).length = s.limit) :
    ((s.closeShard close t).1 = true ∧ (s.closeShard close t).2.rest = s.rest ∧ Gap W empty view Inv0 F N D (s.closeShard close t).2 ∧
      (s.closeShard close t).2.shard = none) ∨
    ((s.closeShard close t).1 = false ∧ Dead C (s.closeShard close t).2) := by
  unfold closeShard
  by_cases hc : close t = true
  · rw [if_pos hc]
    left
    have e : (s.base view).length + (view t).length = s.startPos := by rw [h.start, ← h.dat, List.length_append]
    have e2 := h.lim
    have e3 := h.le
    have hb : ({ s with shard := none, closed := s.closed ++ [(t, s.limit)] } : Sp σ).base view = D := by
      unfold base
      rw [List.map_append, List.flatten_append]
      show s.base view ++ (view t ++ []) = D
      rw [List.append_nil]
      exact h.dat
    refine ⟨rfl, rfl, ⟨⟨h.parts.ok, h.parts.rest, fun p hp => ?_⟩, ?_, h.buf, hb, h.start⟩, rfl⟩
    · rcases List.mem_append.mp hp with hp | hp
      · exact h.parts.closed p hp
      · rw [List.mem_singleton] at hp
        subst hp
        exact ⟨by show (view t).length ≤ s.limit; omega, hne, hF⟩
    · show (s.closed ++ [(t, s.limit)]).map (·.2) ++ s.rest.map (·.2) = N
      rw [List.map_append, List.append_assoc]
      exact h.lims
  · rw [if_neg hc]
    exact .inr ⟨rfl, fail_dead _ (.inr (hC t h.inv (.inr ((Bool.not_eq_true _).mp hc))))⟩

include L hC in
theorem pushShard_spec {D : Bytes} {t : σ} {s : Sp σ} {rec : Nat} (h : Mid W empty view Inv0 F N D t s) (hne : empty = false → view t ≠ [])
    (hlt : s.startPos < s.limitPos) :
    Res W empty view Inv0 F N C D (s.pushShard W rec t) ∧ ((s.pushShard W rec t).1 = true → 1 ≤ (s.pushShard W rec t).2.avail) := by
  unfold pushShard
  dsimp only
  obtain ⟨a1, a2⟩ := L.push (n := 1) (rec := rec) h.inv
  generalize W.push 1 rec t = r at *
  cases hr : r.1 with
  | false =>
    refine ⟨.inr ⟨.inl (makeBuffer_dead _ (a1.2.2.1 hr) (hC _ a1.1 (.inl (a1.2.2.1 hr)))), rfl⟩, nofun⟩
  | true =>
    obtain ⟨b1, b2, b3⟩ := a1.2.1 hr
    rw [overlay_nil] at b1
    have hm : Mid W empty view Inv0 F N D r.2 s :=
      ⟨h.parts, h.lims, h.buf, a1.1, b3.trans h.okT, by rw [b2, b1, h.posT]; rfl, by rw [b1]; exact h.dat, h.start, h.lim, h.pos, h.le⟩
    obtain ⟨c1, c2⟩ := makeBuffer_live hm (by rw [b1]; exact hne)
    refine ⟨.inl ⟨c1, rfl⟩, fun _ => ?_⟩
    rw [c2]
    have := (a2 hr).1
    omega

include L hC in
theorem pushShard_bad {t : σ} {s : Sp σ} {rec : Nat} (h : MidBad W Inv0 t s) : (s.pushShard W rec t).1 = false ∧ Dead C (s.pushShard W rec t).2 := by
  unfold pushShard
  dsimp only
  obtain ⟨a1, a2⟩ := L.push (n := 1) (rec := rec) h.1
  have ho := (a1.2.2.2.1 h.2.1).1
  refine ⟨?_, makeBuffer_dead _ ho (hC _ a1.1 (.inl ho))⟩
  cases hr : (W.push 1 rec t).1 with
  | false => rfl
  | true =>
    have := (a1.2.1 hr).2.2
    rcases (a2 hr).2 with h1 | h1
    · cases h1
    · exact (Bool.false_ne_true (h.2.1.symm.trans h1)).elim

theorem begin_spec {D : Bytes} {s : Sp σ} {n rec : Nat} (h : Live W empty view Inv0 F N D s) (hs : s.scratch = none) :
    Live W empty view Inv0 F N D (s.begin room n rec) ∧ n ≤ (s.begin room n rec).avail := by
  have e : (s.begin room n rec).fresh = s.fresh := by rw [fresh_none hs]; rfl
  refine ⟨⟨⟨h.parts.ok, h.parts.rest, h.parts.closed⟩, fun hn => ?_, fun t ht => ?_⟩, ?_⟩
  · rw [e]; exact h.none hn
  · rw [e]; exact h.some t ht
  · show n ≤ max n (room s.tick n rec) - 0
    omega

theorem Gap.live {D : Bytes} {s : Sp σ} (h : Gap W empty view Inv0 F N D s) (hs : s.shard = none) : Live W empty view Inv0 F N D s := by
  refine ⟨h.parts, fun _ => ⟨h.buf.1, h.buf.2.1, ?_, ?_, h.lims⟩, fun t ht => by rw [hs] at ht; cases ht⟩
  · rw [fresh_none h.buf.2.2, List.append_nil]
    exact h.dat
  · rw [h.start, h.dat]

include L hclose hC in
theorem pushLoop_bad {rec k : Nat} {t : σ} {s : Sp σ} (h : MidBad W Inv0 t s) :
    (pushLoop W close empty room rec k t s).1 = false ∧ Dead C (pushLoop W close empty room rec k t s).2 := by
  cases k with
  | zero => exact ⟨rfl, fail_dead _ (.inr (hC t h.1 (.inl h.2.1)))⟩
  | succ k =>
    unfold pushLoop
    dsimp only
    split
    · obtain ⟨a1, a2⟩ := closeShard_bad (s := s) hclose hC h.1 h.2.1
      rw [if_pos a1]
      exact ⟨rfl, a2⟩
    · exact pushShard_bad L hC h

include L hclose hC in
theorem pushLoop_spec {D : Bytes} {rec k : Nat} {t : σ} {s : Sp σ} (h : Mid W empty view Inv0 F N D t s)
    (hne : s.startPos < s.limitPos → empty = false → view t ≠ []) (hk : s.rest.length < k) :
    Res W empty view Inv0 F N C D (pushLoop W close empty room rec k t s) ∧
    ((pushLoop W close empty room rec k t s).1 = true → 1 ≤ (pushLoop W close empty room rec k t s).2.avail) := by
  induction k generalizing t s with
  | zero => omega
  | succ k ih =>
    have e : (s.base view).length + (view t).length = s.startPos := by rw [h.start, ← h.dat, List.length_append]
    have e2 := h.lim
    have e3 := h.pos
    have e4 := h.le
    unfold pushLoop
    dsimp only
    by_cases hp : s.startPos = s.limitPos
    · rw [if_pos hp]
      rcases closeShard_spec hC h (fun _ h0 => by rw [h0] at e; simp only [List.length_nil] at e; omega) (fun _ => by omega) with ⟨a1, a2, a3, a4⟩ | ⟨a1, a2⟩
      · rw [if_neg (by rw [a1]; nofun)]
        by_cases hem : empty = false
        · rw [if_pos hem]
          obtain ⟨b1, b2⟩ := begin_spec (room := room) (n := 1) (rec := 0) (a3.live a4) a3.buf.2.2
          exact ⟨.inl ⟨b1, rfl⟩, fun _ => b2⟩
        · rw [if_neg hem]
          rcases openShard_spec L a3 with ⟨b1, b2, u, b3, b4⟩ | ⟨b1, b2⟩
          · rw [b1, b3]
            dsimp only
            rw [a2] at b2
            rcases b4 with ⟨b4, -⟩ | b4
            · exact ih b4 (fun _ he => (hem he).elim) (by omega)
            · obtain ⟨c1, c2⟩ := pushLoop_bad (empty := empty) (room := room) (rec := rec) (k := k) L hclose hC b4
              exact ⟨.inr ⟨.inl c2, c1⟩, fun hf => (Bool.false_ne_true (c1.symm.trans hf)).elim⟩
          · rw [b1]
            dsimp only
            exact ⟨.inr ⟨.inl b2, rfl⟩, nofun⟩
      · rw [if_pos a1]
        exact ⟨.inr ⟨.inl a2, rfl⟩, nofun⟩
    · rw [if_neg hp]
      exact pushShard_spec L hC h (hne (by omega)) (by omega)

include L in
/-- `SyncBuffer()`. -/
theorem syncBuffer_spec {D : Bytes} {t : σ} {s : Sp σ} (h : Live W empty view Inv0 F N D s) (hs : s.shard = some t) (hn : s.scratch = none) :
    Mid W empty view Inv0 F N D (W.put s.buf t) (s.syncBuffer W t) ∧ (empty = false → view (W.put s.buf t) ≠ []) := by
  obtain ⟨a0, a1, a2, a3, a4, a5, a6, a7, a8, a9, a10, a11⟩ := h.some t hs
  obtain ⟨b1, b2, b3, b4, b5, b6⟩ := L.put s.buf t a1 (by omega)
  rw [a3, overlay_end] at b2
  rw [fresh_none hn, List.append_nil] at a4
  refine ⟨⟨⟨h.parts.ok, h.parts.rest, h.parts.closed⟩, a0, ⟨rfl, rfl, hn⟩, b1, b5.trans a2, ?_, ?_, ?_, a6, a7, ?_⟩, ?_⟩
  · rw [b3, b2, a3, List.length_append]
  · rw [b2, ← List.append_assoc]
    exact a4
  · show s.startPos + s.buf.length = D.length
    rw [← a4, a5]
    simp only [List.length_append]
  · show s.startPos + s.buf.length ≤ s.limitPos
    omega
  · rw [b2]
    exact a11

include L in
theorem syncBuffer_bad {t : σ} {s : Sp σ} (h : MidBad W Inv0 t s) : MidBad W Inv0 (W.put s.buf t) (s.syncBuffer W t) := by
  obtain ⟨h1, h2, h3, h4, h5, h6⟩ := h
  obtain ⟨b1, b2, b3, b4, b5, b6⟩ := L.put s.buf t h1 (by rw [h4]; exact Nat.zero_le _)
  exact ⟨b1, b5.trans h2, h3, rfl, rfl, h6⟩

theorem Live.gap {D : Bytes} {s : Sp σ} (h : Live W empty view Inv0 F N D s) (hs : s.shard = Option.none) (hn : s.scratch = Option.none) :
    Gap W empty view Inv0 F N D s := by
  obtain ⟨a1, a2, a3, a4, a5⟩ := h.none hs
  rw [fresh_none hn, List.append_nil] at a3
  exact ⟨h.parts, a5, ⟨a1, a2, hn⟩, a3, by rw [a4, a3]⟩

include L hclose hC in
theorem pushBehind_spec {D : Bytes} {s : Sp σ} {rec : Nat} (h : Live W empty view Inv0 F N D s) (hn : s.scratch = none) :
    Res W empty view Inv0 F N C D (s.pushBehind W close empty room rec) ∧
    ((s.pushBehind W close empty room rec).1 = true → 1 ≤ (s.pushBehind W close empty room rec).2.avail) := by
  unfold pushBehind
  rw [if_neg (by rw [h.parts.ok]; nofun)]
  cases hs : s.shard with
  | none =>
    dsimp only
    by_cases hem : empty = false
    · rw [if_pos hem]
      obtain ⟨b1, b2⟩ := begin_spec (room := room) (n := 1) (rec := 0) h hn
      exact ⟨.inl ⟨b1, rfl⟩, fun _ => b2⟩
    · rw [if_neg hem]
      rcases openShard_spec L (h.gap hs hn) with ⟨b1, b2, u, b3, b4⟩ | ⟨b1, b2⟩
      · rw [b1, b3]
        dsimp only
        rcases b4 with ⟨b4, b5⟩ | b4
        · exact pushShard_spec L hC b4 (fun he => (hem he).elim) b5
        · obtain ⟨c1, c2⟩ := pushShard_bad (rec := rec) L hC b4
          exact ⟨.inr ⟨.inl c2, c1⟩, fun hf => (Bool.false_ne_true (c1.symm.trans hf)).elim⟩
      · rw [b1]
        dsimp only
        exact ⟨.inr ⟨.inl b2, rfl⟩, nofun⟩
  | some t =>
    dsimp only
    obtain ⟨a1, a2⟩ := syncBuffer_spec L h hs hn
    exact pushLoop_spec L hclose hC a1 (fun _ => a2) (Nat.lt_succ_self _)

include L hclose hC in
theorem pushBehind_bad {s : Sp σ} {rec : Nat} (h : Bad W Inv0 C s) :
    (s.pushBehind W close empty room rec).1 = false ∧ Bad W Inv0 C (s.pushBehind W close empty room rec).2 := by
  unfold pushBehind
  rcases h with h | ⟨t, hs, h⟩
  · rw [if_pos h.1]
    exact ⟨rfl, .inl h⟩
  · rw [if_neg (by rw [h.2.2.1]; nofun), hs]
    dsimp only
    obtain ⟨a1, a2⟩ := pushLoop_bad (empty := empty) (room := room) (rec := rec) (k := s.rest.length + 1) L hclose hC (syncBuffer_bad L h)
    exact ⟨a1, .inl a2⟩

section
variable {P : Bytes → Prop} (hP : ∀ n bs, P bs → P (bs.take n) ∧ P (bs.drop n)) {wr : List Bytes → σ → Bool × σ}
  (hwr : ∀ fs t, P fs.flatten → Inv0 t → WritePost W view dest Inv0 fs.flatten t (wr fs t) ∧ ((wr fs t).1 = true → fs.flatten = [] ∨ W.ok t = true))
include hP hclose hC hwr

theorem spread_bad {k : Nat} {fs : List Bytes} {t : σ} {s : Sp σ} (h : MidBad W Inv0 t s) (hp : P fs.flatten) (hfs : fs.flatten ≠ []) :
    (spread W close wr k fs t s).1 = false ∧ Dead C (spread W close wr k fs t s).2 := by
  cases k with
  | zero => exact ⟨rfl, fail_dead _ (.inr (hC t h.1 (.inl h.2.1)))⟩
  | succ k =>
    unfold spread
    dsimp only
    split
    · obtain ⟨a1, a2⟩ := hwr fs t hp h.1
      have ho := (a1.2.2.2.1 h.2.1).1
      have hf : (wr fs t).1 = false := by
        cases hr : (wr fs t).1 with
        | false => rfl
        | true =>
          rcases a2 hr with h1 | h1
          · exact (hfs h1).elim
          · exact (Bool.false_ne_true (h.2.1.symm.trans h1)).elim
      rw [if_pos hf]
      exact ⟨rfl, makeBuffer_dead _ ho (hC _ a1.1 (.inl ho))⟩
    · obtain ⟨a1, a2⟩ := hwr (takeF (s.limitPos - s.startPos) fs) t (by rw [takeF_flatten]; exact (hP _ _ hp).1) h.1
      have ho := (a1.2.2.2.1 h.2.1).1
      split
      · exact ⟨rfl, makeBuffer_dead _ ho (hC _ a1.1 (.inl ho))⟩
      · obtain ⟨b1, b2⟩ := closeShard_bad (s := { s with startPos := s.startPos + (s.limitPos - s.startPos) }) hclose hC a1.1 ho
        rw [if_pos b1]
        exact ⟨rfl, b2⟩

include L in
theorem spread_spec {D : Bytes} {k : Nat} {fs : List Bytes} {t : σ} {s : Sp σ} (h : Mid W empty view Inv0 F N D t s) (hp : P fs.flatten) (hfs : fs.flatten ≠ [])
    (hk : s.rest.length < k) : Res W empty view Inv0 F N C (D ++ fs.flatten) (spread W close wr k fs t s) := by
  induction k generalizing D fs t s with
  | zero => omega
  | succ k ih =>
    have e : (s.base view).length + (view t).length = s.startPos := by rw [h.start, ← h.dat, List.length_append]
    have e2 := h.lim
    have e3 := h.pos
    have e4 := h.le
    unfold spread
    dsimp only
    -- the state after writing a part
    have key : ∀ (gs : List Bytes), P gs.flatten → gs.flatten.length ≤ s.limitPos - s.startPos → (wr gs t).1 = true →
        Mid W empty view Inv0 F N (D ++ gs.flatten) (wr gs t).2 { s with startPos := s.startPos + gs.flatten.length } ∧
        view (wr gs t).2 = view t ++ gs.flatten := by
      intro gs hgp hl hr
      obtain ⟨a1, -⟩ := hwr gs t hgp h.inv
      obtain ⟨b1, b2, b3⟩ := a1.2.1 hr
      rw [h.posT, overlay_end] at b1
      refine ⟨⟨⟨h.parts.ok, h.parts.rest, h.parts.closed⟩, h.lims, h.buf, a1.1, b3.trans h.okT, ?_, ?_, ?_, h.lim, h.pos, ?_⟩, b1⟩
      · rw [b2, b1, h.posT, List.length_append]
      · rw [b1, ← List.append_assoc]
        show s.base view ++ view t ++ gs.flatten = _
        rw [h.dat]
      · show s.startPos + gs.flatten.length = _
        rw [List.length_append, h.start]
      · show s.startPos + gs.flatten.length ≤ s.limitPos
        omega
    by_cases hl : fs.flatten.length ≤ s.limitPos - s.startPos
    · rw [if_pos hl]
      by_cases hr : (wr fs t).1 = false
      · rw [if_pos hr]
        have a1 := (hwr fs t hp h.inv).1
        exact .inr ⟨.inl (makeBuffer_dead _ (a1.2.2.1 hr) (hC _ a1.1 (.inl (a1.2.2.1 hr)))), rfl⟩
      · rw [if_neg hr]
        obtain ⟨a1, a2⟩ := key fs hp hl ((Bool.not_eq_false _).mp hr)
        exact .inl ⟨(makeBuffer_live a1 (fun _ => by rw [a2]; simp [hfs])).1, rfl⟩
    · rw [if_neg hl]
      have hg : (takeF (s.limitPos - s.startPos) fs).flatten = fs.flatten.take (s.limitPos - s.startPos) := takeF_flatten _ _
      have hgl : (takeF (s.limitPos - s.startPos) fs).flatten.length = s.limitPos - s.startPos := by rw [hg, List.length_take]; omega
      by_cases hr : (wr (takeF (s.limitPos - s.startPos) fs) t).1 = false
      · rw [if_pos hr]
        have a1 := (hwr (takeF (s.limitPos - s.startPos) fs) t (by rw [hg]; exact (hP _ _ hp).1) h.inv).1
        exact .inr ⟨.inl (makeBuffer_dead _ (a1.2.2.1 hr) (hC _ a1.1 (.inl (a1.2.2.1 hr)))), rfl⟩
      · rw [if_neg hr]
        obtain ⟨a1, a2⟩ := key _ (by rw [hg]; exact (hP _ _ hp).1) (by omega) ((Bool.not_eq_false _).mp hr)
        rw [hgl] at a1
        have hvl : (view (wr (takeF (s.limitPos - s.startPos) fs) t).2).length = s.limit := by
          rw [a2, List.length_append, hgl]; omega
        rcases closeShard_spec hC a1 (fun _ h0 => by rw [h0] at hvl; simp only [List.length_nil] at hvl; omega) (fun _ => hvl) with
          ⟨b1, b2, b3, b4⟩ | ⟨b1, b2⟩
        · rw [if_neg (by rw [b1]; nofun)]
          have hd : (dropF (s.limitPos - s.startPos) fs).flatten = fs.flatten.drop (s.limitPos - s.startPos) := dropF_flatten _ _
          have hdne : (dropF (s.limitPos - s.startPos) fs).flatten ≠ [] := by
            intro h0
            have h1 : (dropF (s.limitPos - s.startPos) fs).flatten.length = 0 := by rw [h0]; rfl
            rw [hd, List.length_drop] at h1
            omega
          rcases openShard_spec L b3 with ⟨c1, c2, u, c3, c4⟩ | ⟨c1, c2⟩
          · rw [c1, c3]
            dsimp only
            rw [b2] at c2
            have c2 : _ + 1 = s.rest.length := c2
            rcases c4 with ⟨c4, -⟩ | c4
            · have := ih (fs := dropF (s.limitPos - s.startPos) fs) c4 (by rw [hd]; exact (hP _ _ hp).2) hdne (by omega)
              rwa [List.append_assoc, hg, hd, List.take_append_drop] at this
            · obtain ⟨d1, d2⟩ := spread_bad (k := k) hclose hC hP hwr c4 (by rw [hd]; exact (hP _ _ hp).2) hdne
              exact .inr ⟨.inl d2, d1⟩
          · rw [c1]
            dsimp only
            exact .inr ⟨.inl c2, rfl⟩
        · rw [if_pos b1]
          exact .inr ⟨.inl b2, rfl⟩

include L in
theorem writeBehind_spec {D : Bytes} {fs : List Bytes} {s : Sp σ} (h : Live W empty view Inv0 F N D s) (hn : s.scratch = none) (hp : P fs.flatten) (hfs : fs.flatten ≠ []) :
    Res W empty view Inv0 F N C (D ++ fs.flatten) (s.writeBehind W close wr fs) := by
  unfold writeBehind
  rw [if_neg (by rw [h.parts.ok]; nofun)]
  cases hs : s.shard with
  | some t =>
    dsimp only
    exact spread_spec L hclose hC hP hwr (syncBuffer_spec L h hs hn).1 hp hfs (Nat.lt_succ_self _)
  | none =>
    dsimp only
    rcases openShard_spec L (h.gap hs hn) with ⟨b1, b2, u, b3, b4⟩ | ⟨b1, b2⟩
    · rw [b1, b3]
      dsimp only
      rcases b4 with ⟨b4, -⟩ | b4
      · exact spread_spec L hclose hC hP hwr b4 hp hfs (Nat.lt_succ_self _)
      · obtain ⟨c1, c2⟩ := spread_bad (k := (s.openShard W).2.rest.length + 1) hclose hC hP hwr b4 hp hfs
        exact .inr ⟨.inl c2, c1⟩
    · rw [b1]
      dsimp only
      exact .inr ⟨.inl b2, rfl⟩

include L in
theorem writeBehind_bad {fs : List Bytes} {s : Sp σ} (h : Bad W Inv0 C s) (hp : P fs.flatten) (hfs : fs.flatten ≠ []) :
    (s.writeBehind W close wr fs).1 = false ∧ Bad W Inv0 C (s.writeBehind W close wr fs).2 := by
  unfold writeBehind
  rcases h with h | ⟨t, hs, h⟩
  · rw [if_pos h.1]
    exact ⟨rfl, .inl h⟩
  · rw [if_neg (by rw [h.2.2.1]; nofun), hs]
    dsimp only
    obtain ⟨a1, a2⟩ := spread_bad (k := s.rest.length + 1) hclose hC hP hwr (syncBuffer_bad L h) hp hfs
    exact ⟨a1, .inl a2⟩

end

theorem makeBuffer_scratch {t : σ} {s : Sp σ} (h : s.scratch = none) : (s.makeBuffer W t).scratch = none := by
  unfold makeBuffer
  dsimp only
  split
  · exact h
  · rfl

theorem openShard_scratch {s : Sp σ} (h : s.scratch = none) : (s.openShard W).2.scratch = none := by
  unfold openShard
  split
  · rfl
  · exact h

theorem closeShard_scratch {t : σ} {s : Sp σ} (h : s.scratch = none) : (s.closeShard close t).2.scratch = none := by
  unfold closeShard
  split
  · exact h
  · rfl

theorem spread_scratch {wr : List Bytes → σ → Bool × σ} {k : Nat} {fs : List Bytes} {t : σ} {s : Sp σ} (h : s.scratch = none) :
    (spread W close wr k fs t s).2.scratch = none := by
  induction k generalizing fs t s with
  | zero => rfl
  | succ k ih =>
    unfold spread
    dsimp only
    split
    · split
      · exact makeBuffer_scratch h
      · exact makeBuffer_scratch h
    · split
      · exact makeBuffer_scratch h
      · have h1 := closeShard_scratch (close := close) (t := (wr (takeF (s.limitPos - s.startPos) fs) t).2)
          (s := { s with startPos := s.startPos + (s.limitPos - s.startPos) }) h
        split
        · exact h1
        · split
          · exact ih (openShard_scratch h1)
          · exact openShard_scratch h1

theorem writeBehind_scratch {wr : List Bytes → σ → Bool × σ} {fs : List Bytes} {s : Sp σ} (h : s.scratch = none) :
    (s.writeBehind W close wr fs).2.scratch = none := by
  unfold writeBehind
  split
  · exact h
  · split
    · exact spread_scratch h
    · dsimp only
      split
      · exact spread_scratch (openShard_scratch h)
      · exact openShard_scratch h

/-- Without the data in scratch. -/
theorem Live.split {D : Bytes} {s : Sp σ} (h : Live W empty view Inv0 F N D s) :
    ∃ D', D = D' ++ s.fresh ∧ Live W empty view Inv0 F N D' { s with scratch := Option.none } := by
  cases hs : s.shard with
  | none =>
    obtain ⟨a1, a2, a3, a4, a5⟩ := h.none hs
    refine ⟨s.base view, a3.symm, ⟨h.parts.ok, h.parts.rest, h.parts.closed⟩, fun _ => ⟨a1, a2, ?_, a4, a5⟩, fun t ht => ?_⟩
    · exact List.append_nil _
    · cases ht
  | some t =>
    obtain ⟨a0, a1, a2, a3, a4, a5⟩ := h.some t hs
    refine ⟨s.base view ++ view t ++ s.buf, a4.symm, ⟨h.parts.ok, h.parts.rest, h.parts.closed⟩, nofun, fun u hu => ?_⟩
    · cases hu
      exact ⟨a0, a1, a2, a3, List.append_nil _, a5⟩

/-- With data in scratch. -/
theorem Live.join {D : Bytes} {s : Sp σ} (h : Live W empty view Inv0 F N D s) (hn : s.scratch = Option.none) (sc : Option (Bytes × Nat)) :
    Live W empty view Inv0 F N (D ++ ({ s with scratch := sc } : Sp σ).fresh) { s with scratch := sc } := by
  refine ⟨⟨h.parts.ok, h.parts.rest, h.parts.closed⟩, fun hs => ?_, fun t ht => ?_⟩
  · obtain ⟨a1, a2, a3, a4, a5⟩ := h.none hs
    rw [fresh_none hn, List.append_nil] at a3
    exact ⟨a1, a2, by rw [← a3]; rfl, a4, a5⟩
  · obtain ⟨a0, a1, a2, a3, a4, a5⟩ := h.some t ht
    rw [fresh_none hn, List.append_nil] at a4
    exact ⟨a0, a1, a2, a3, by rw [← a4]; rfl, a5⟩

theorem put_spec {D bs : Bytes} {s : Sp σ} (h : Live W empty view Inv0 F N D s) (hb : bs.length ≤ s.avail) :
    Live W empty view Inv0 F N (D ++ bs) (s.put bs) := by
  cases hn : s.scratch with
  | some p =>
    obtain ⟨D', e, h1⟩ := h.split
    have h2 := h1.join rfl (some (p.1 ++ bs, p.2))
    have e1 : s.fresh = p.1 := by unfold fresh; rw [hn]
    have e2 : s.put bs = { s with scratch := some (p.1 ++ bs, p.2) } := by unfold put; rw [hn]
    rw [e2, e, e1, List.append_assoc]
    exact h2
  | none =>
    have e2 : s.put bs = { s with buf := s.buf ++ bs } := by unfold put; rw [hn]
    have ha : s.avail = s.len - s.buf.length := by unfold avail; rw [hn]
    have hf : (({ s with buf := s.buf ++ bs } : Sp σ)).fresh = [] := fresh_none hn
    rw [e2]
    refine ⟨⟨h.parts.ok, h.parts.rest, h.parts.closed⟩, fun hs => ?_, fun t ht => ?_⟩
    · obtain ⟨a1, a2, a3, a4, a5⟩ := h.none hs
      have : bs = [] := List.length_eq_zero_iff.mp (by omega)
      subst this
      rw [fresh_none hn] at a3
      refine ⟨?_, a2, ?_, a4, a5⟩
      · show s.buf ++ [] = []
        rw [a1]; rfl
      · have a3 : s.base view = D := (List.append_nil _).symm.trans a3
        rw [hf]
        show s.base view ++ [] = D ++ []
        rw [a3]
    · obtain ⟨a0, a1, a2, a3, a4, a5, a6, a7, a8, a9, a10, a11⟩ := h.some t ht
      rw [fresh_none hn, List.append_nil] at a4
      refine ⟨a0, a1, a2, a3, ?_, a5, a6, a7, ?_, a9, a10, fun he => ?_⟩
      · rw [hf, List.append_nil, ← a4]
        simp only [List.append_assoc]
        rfl
      · show (s.buf ++ bs).length ≤ s.len
        rw [List.length_append]
        omega
      · show view t ++ (s.buf ++ bs) ≠ []
        rw [← List.append_assoc]
        intro h0
        exact a11 he (List.append_eq_nil_iff.mp h0).1

theorem put_bad {bs : Bytes} {s : Sp σ} (h : Bad W Inv0 C s) (hb : bs.length ≤ s.avail) : s.put bs = s := by
  obtain ⟨a1, a2, a3⟩ := bad_avail h
  have : bs = [] := List.length_eq_zero_iff.mp (by omega)
  subst this
  unfold put
  split
  · rw [List.append_nil]
  · rename_i p hp
    rw [a2] at hp
    cases hp

/-! ### Ways of writing to a shard -/

include L in
theorem wr_chars : ∀ (fs : List Bytes) (t : σ), (fun _ => True) fs.flatten → Inv0 t →
    WritePost W view dest Inv0 fs.flatten t (W.write fs.flatten t) ∧ ((W.write fs.flatten t).1 = true → fs.flatten = [] ∨ W.ok t = true) :=
  fun _ _ _ ht => L.write ht

include L in
theorem wr_refs : ∀ (fs : List Bytes) (t : σ), (fun _ => True) fs.flatten → Inv0 t →
    WritePost W view dest Inv0 fs.flatten t (W.writeChain fs t) ∧ ((W.writeChain fs t).1 = true → fs.flatten = [] ∨ W.ok t = true) :=
  fun _ _ _ ht => L.writeChain ht

include L in
theorem wr_fill {b : UInt8} : ∀ (fs : List Bytes) (t : σ), (fun bs => bs = List.replicate bs.length b) fs.flatten → Inv0 t →
    WritePost W view dest Inv0 fs.flatten t (W.fill fs.flatten.length b t) ∧ ((W.fill fs.flatten.length b t).1 = true → fs.flatten = [] ∨ W.ok t = true) := by
  intro fs t hp ht
  obtain ⟨a1, a2⟩ := L.fill (n := fs.flatten.length) (b := b) ht
  rw [← hp] at a1
  exact ⟨a1, fun hr => (a2 hr).imp List.length_eq_zero_iff.mp id⟩

theorem all_closed : ∀ (n : Nat) (bs : Bytes), (fun _ => True) bs → (fun _ => True) (bs.take n) ∧ (fun _ => True) (bs.drop n) := fun _ _ _ => ⟨trivial, trivial⟩

theorem fill_closed {b : UInt8} : ∀ (n : Nat) (bs : Bytes), (fun bs => bs = List.replicate bs.length b) bs →
    (fun bs : Bytes => bs = List.replicate bs.length b) (bs.take n) ∧ (fun bs : Bytes => bs = List.replicate bs.length b) (bs.drop n) := by
  intro n bs h
  dsimp only at h ⊢
  refine ⟨?_, ?_⟩
  · rw [List.length_take, ← List.take_replicate, ← h]
  · rw [List.length_drop, ← List.drop_replicate, ← h]

/-! ### Slow paths -/

section
include L hclose hC

theorem sync_spec {D : Bytes} {s : Sp σ} (h : Live W empty view Inv0 F N D s) :
    Res W empty view Inv0 F N C D (s.sync W close) ∧ (s.sync W close).2.scratch = none := by
  unfold sync
  cases hn : s.scratch with
  | none => exact ⟨.inl ⟨h, rfl⟩, hn⟩
  | some p =>
    dsimp only
    obtain ⟨D', e, h1⟩ := h.split
    have e1 : s.fresh = p.1 := by unfold fresh; rw [hn]
    rw [e1] at e
    by_cases hl : p.1.length ≤ ({ s with scratch := none } : Sp σ).avail
    · have hx : Res W empty view Inv0 F N C D (true, ({ s with scratch := none } : Sp σ).put p.1) := .inl ⟨e ▸ put_spec h1 hl, rfl⟩
      split
      · exact ⟨hx, rfl⟩
      · exact ⟨hx, rfl⟩
    · rw [if_neg (fun hh => hl hh.1), if_neg hl]
      have hne : [p.1].flatten ≠ [] := by
        rw [List.flatten_singleton]
        intro h0
        rw [h0] at hl
        exact hl (Nat.zero_le _)
      have := writeBehind_spec L hclose hC all_closed (wr_chars L) (fs := [p.1]) h1 rfl trivial hne
      rw [List.flatten_singleton, ← e] at this
      exact ⟨this, writeBehind_scratch rfl⟩

omit L hclose hC in
theorem sync_bad {s : Sp σ} (h : Bad W Inv0 C s) : s.sync W close = (true, s) := by
  unfold sync
  rw [(bad_avail h).2.1]

theorem writeSlow_spec {D bs : Bytes} {s : Sp σ} (h : Live W empty view Inv0 F N D s) (hne : bs ≠ []) :
    Res W empty view Inv0 F N C (D ++ bs) (s.writeSlow W close bs) := by
  obtain ⟨a1, a2⟩ := sync_spec L hclose hC h
  unfold writeSlow
  dsimp only
  rcases a1 with ⟨a1, a3⟩ | ⟨a1, a3⟩
  · rw [if_neg (by rw [a3]; nofun)]
    split
    · rename_i hb
      exact .inl ⟨put_spec a1 hb.2, rfl⟩
    · have := writeBehind_spec L hclose hC all_closed (wr_chars L) (fs := [bs]) a1 a2 trivial (by rw [List.flatten_singleton]; exact hne)
      rw [List.flatten_singleton] at this
      exact this
  · rw [if_pos a3]
    exact .inr ⟨a1, rfl⟩

theorem writeSlow_bad {bs : Bytes} {s : Sp σ} (h : Bad W Inv0 C s) (hne : bs ≠ []) :
    (s.writeSlow W close bs).1 = false ∧ Bad W Inv0 C (s.writeSlow W close bs).2 := by
  unfold writeSlow
  rw [sync_bad h]
  dsimp only
  rw [if_neg nofun, if_neg (fun hh => by rw [(bad_avail h).2.1] at hh; cases hh.1)]
  exact writeBehind_bad L hclose hC all_closed (wr_chars L) (fs := [bs]) h trivial (by rw [List.flatten_singleton]; exact hne)

theorem refSlow_spec {D : Bytes} {fs : List Bytes} {s : Sp σ} (h : Live W empty view Inv0 F N D s) (hne : fs.flatten ≠ []) :
    Res W empty view Inv0 F N C (D ++ fs.flatten) (s.refSlow W close fs) := by
  obtain ⟨a1, a2⟩ := sync_spec L hclose hC h
  unfold refSlow
  dsimp only
  rcases a1 with ⟨a1, a3⟩ | ⟨a1, a3⟩
  · rw [if_neg (by rw [a3]; nofun)]
    split
    · rename_i hb
      exact .inl ⟨put_spec a1 hb.2.1, rfl⟩
    · exact writeBehind_spec L hclose hC all_closed (wr_refs L) (fs := fs) a1 a2 trivial hne
  · rw [if_pos a3]
    exact .inr ⟨a1, rfl⟩

theorem refSlow_bad {fs : List Bytes} {s : Sp σ} (h : Bad W Inv0 C s) (hne : fs.flatten ≠ []) :
    (s.refSlow W close fs).1 = false ∧ Bad W Inv0 C (s.refSlow W close fs).2 := by
  unfold refSlow
  rw [sync_bad h]
  dsimp only
  rw [if_neg nofun, if_neg (fun hh => by rw [(bad_avail h).2.1] at hh; cases hh.1)]
  exact writeBehind_bad L hclose hC all_closed (wr_refs L) h trivial hne

theorem fillSlow_spec {D : Bytes} {n : Nat} {b : UInt8} {s : Sp σ} (h : Live W empty view Inv0 F N D s) (hne : 0 < n) :
    Res W empty view Inv0 F N C (D ++ List.replicate n b) (s.fillSlow W close n b) := by
  obtain ⟨a1, a2⟩ := sync_spec L hclose hC h
  unfold fillSlow
  dsimp only
  rcases a1 with ⟨a1, a3⟩ | ⟨a1, a3⟩
  · rw [if_neg (by rw [a3]; nofun)]
    split
    · rename_i hb
      exact .inl ⟨put_spec a1 (by rw [List.length_replicate]; exact hb.2.1), rfl⟩
    · have hx : [List.replicate n b].flatten ≠ [] := by
        rw [List.flatten_singleton]
        intro h0
        have := congrArg List.length h0
        rw [List.length_replicate] at this
        exact Nat.ne_of_gt hne this
      have := writeBehind_spec L hclose hC fill_closed (wr_fill L (b := b)) (fs := [List.replicate n b]) a1 a2
        (by rw [List.flatten_singleton, List.length_replicate]) hx
      rw [List.flatten_singleton] at this
      exact this
  · rw [if_pos a3]
    exact .inr ⟨a1, rfl⟩

theorem fillSlow_bad {n : Nat} {b : UInt8} {s : Sp σ} (h : Bad W Inv0 C s) (hne : 0 < n) :
    (s.fillSlow W close n b).1 = false ∧ Bad W Inv0 C (s.fillSlow W close n b).2 := by
  unfold fillSlow
  rw [sync_bad h]
  dsimp only
  rw [if_neg nofun, if_neg (fun hh => by rw [(bad_avail h).2.1] at hh; cases hh.1)]
  have hx : [List.replicate n b].flatten ≠ [] := by
    rw [List.flatten_singleton]
    intro h0
    have := congrArg List.length h0
    rw [List.length_replicate] at this
    exact Nat.ne_of_gt hne this
  exact writeBehind_bad L hclose hC fill_closed (wr_fill L (b := b)) h (by rw [List.flatten_singleton, List.length_replicate]) hx

theorem pushSlow_spec {D : Bytes} {n rec : Nat} {s : Sp σ} (h : Live W empty view Inv0 F N D s) :
    Res W empty view Inv0 F N C D (s.pushSlow W close empty room n rec) ∧
    ((s.pushSlow W close empty room n rec).1 = true → n ≤ (s.pushSlow W close empty room n rec).2.avail) := by
  obtain ⟨a1, a2⟩ := sync_spec L hclose hC h
  unfold pushSlow
  dsimp only
  generalize s.sync W close = r at *
  rcases a1 with ⟨a1, a3⟩ | ⟨a1, a3⟩
  · rw [if_neg (by rw [a3]; nofun)]
    split
    · rename_i hb
      exact ⟨.inl ⟨a1, rfl⟩, fun _ => hb.2⟩
    · obtain ⟨b1, b2⟩ := pushBehind_spec (room := room) (rec := rec) L hclose hC a1 a2
      split
      · rename_i hn
        subst hn
        exact ⟨b1, b2⟩
      · split
        · generalize r.2.pushBehind W close empty room rec = p at *
          rcases b1 with ⟨b1, b3⟩ | ⟨b1, b3⟩
          · rw [if_neg (by rw [b3]; nofun)]
            split
            · rename_i hb
              exact ⟨.inl ⟨b1, rfl⟩, fun _ => hb⟩
            · obtain ⟨c1, c2⟩ := sync_spec L hclose hC b1
              generalize p.2.sync W close = q at *
              rcases c1 with ⟨c1, c3⟩ | ⟨c1, c3⟩
              · rw [if_neg (by rw [c3]; nofun)]
                split
                · rename_i hb
                  exact ⟨.inl ⟨c1, rfl⟩, fun _ => hb.2⟩
                · obtain ⟨d1, d2⟩ := begin_spec (room := room) (n := n) (rec := rec) c1 c2
                  exact ⟨.inl ⟨d1, rfl⟩, fun _ => d2⟩
              · rw [if_pos c3]
                exact ⟨.inr ⟨c1, rfl⟩, nofun⟩
          · rw [if_pos b3]
            exact ⟨.inr ⟨b1, rfl⟩, nofun⟩
        · obtain ⟨d1, d2⟩ := begin_spec (room := room) (n := n) (rec := rec) a1 a2
          exact ⟨.inl ⟨d1, rfl⟩, fun _ => d2⟩
  · rw [if_pos a3]
    exact ⟨.inr ⟨a1, rfl⟩, nofun⟩

theorem pushSlow_bad {n rec : Nat} {s : Sp σ} (h : Bad W Inv0 C s) :
    (s.pushSlow W close empty room n rec).1 = false ∧ Bad W Inv0 C (s.pushSlow W close empty room n rec).2 := by
  obtain ⟨b1, b2⟩ := pushBehind_bad (empty := empty) (room := room) (rec := rec) L hclose hC h
  unfold pushSlow
  rw [sync_bad h]
  dsimp only
  rw [if_neg nofun, if_neg (fun hh => by rw [(bad_avail h).2.1] at hh; cases hh.1)]
  split
  · exact ⟨b1, b2⟩
  · rw [if_pos (bad_avail h).1]
    exact ⟨rfl, b2⟩

omit hclose in
theorem flushBehind_spec {D : Bytes} {ty : FlushType} {s : Sp σ} (h : Live W empty view Inv0 false N D s) (hn : s.scratch = none) :
    Res W empty view Inv0 false N C D (s.flushBehind W close ty) ∧
    ((s.flushBehind W close ty).1 = true → (s.flushBehind W close ty).2.shard = none ∧ (s.flushBehind W close ty).2.scratch = none ∧
      ((s.flushBehind W close ty).2.closed = s.closed ∨ ∃ p, (s.flushBehind W close ty).2.closed = s.closed ++ [p])) := by
  unfold flushBehind
  rw [if_neg (by rw [h.parts.ok]; nofun)]
  cases hs : s.shard with
  | none => exact ⟨.inl ⟨h, rfl⟩, fun _ => ⟨hs, hn, .inl rfl⟩⟩
  | some t =>
    dsimp only
    obtain ⟨a1, a2⟩ := syncBuffer_spec L h hs hn
    have fin : ∀ u, Mid W empty view Inv0 false N D u (s.syncBuffer W t) → (empty = false → view u ≠ []) →
        Res W empty view Inv0 false N C D ((s.syncBuffer W t).closeShard close u) ∧
        (((s.syncBuffer W t).closeShard close u).1 = true → ((s.syncBuffer W t).closeShard close u).2.shard = none ∧
          ((s.syncBuffer W t).closeShard close u).2.scratch = none ∧
          (((s.syncBuffer W t).closeShard close u).2.closed = s.closed ∨ ∃ p, ((s.syncBuffer W t).closeShard close u).2.closed = s.closed ++ [p])) := by
      intro u hu hne
      have hc : ((s.syncBuffer W t).closeShard close u).1 = true → ∃ p, ((s.syncBuffer W t).closeShard close u).2.closed = s.closed ++ [p] := by
        unfold closeShard
        split
        · exact fun _ => ⟨_, rfl⟩
        · nofun
      rcases closeShard_spec hC hu hne nofun with ⟨b1, b2, b3, b4⟩ | ⟨b1, b2⟩
      · exact ⟨.inl ⟨b3.live b4, b1⟩, fun hr => ⟨b4, b3.buf.2.2, .inr (hc hr)⟩⟩
      · exact ⟨.inr ⟨.inl b2, b1⟩, fun hr => (Bool.false_ne_true (b1.symm.trans hr)).elim⟩
    have imp : Res W empty view Inv0 false N C D
          (if (W.flushImpl ty (W.put s.buf t)).1 = false then (false, { s.syncBuffer W t with shard := some (W.flushImpl ty (W.put s.buf t)).2 })
            else (s.syncBuffer W t).closeShard close (W.flushImpl ty (W.put s.buf t)).2) ∧ _ :=
      show _ ∧ ((if (W.flushImpl ty (W.put s.buf t)).1 = false then (false, { s.syncBuffer W t with shard := some (W.flushImpl ty (W.put s.buf t)).2 })
            else (s.syncBuffer W t).closeShard close (W.flushImpl ty (W.put s.buf t)).2).1 = true →
          (if (W.flushImpl ty (W.put s.buf t)).1 = false then (false, { s.syncBuffer W t with shard := some (W.flushImpl ty (W.put s.buf t)).2 })
            else (s.syncBuffer W t).closeShard close (W.flushImpl ty (W.put s.buf t)).2).2.shard = none ∧
          (if (W.flushImpl ty (W.put s.buf t)).1 = false then (false, { s.syncBuffer W t with shard := some (W.flushImpl ty (W.put s.buf t)).2 })
            else (s.syncBuffer W t).closeShard close (W.flushImpl ty (W.put s.buf t)).2).2.scratch = none ∧
          ((if (W.flushImpl ty (W.put s.buf t)).1 = false then (false, { s.syncBuffer W t with shard := some (W.flushImpl ty (W.put s.buf t)).2 })
            else (s.syncBuffer W t).closeShard close (W.flushImpl ty (W.put s.buf t)).2).2.closed = s.closed ∨
          ∃ p, (if (W.flushImpl ty (W.put s.buf t)).1 = false then (false, { s.syncBuffer W t with shard := some (W.flushImpl ty (W.put s.buf t)).2 })
            else (s.syncBuffer W t).closeShard close (W.flushImpl ty (W.put s.buf t)).2).2.closed = s.closed ++ [p])) from by
      obtain ⟨c1, -⟩ := L.flushImpl ty (W.put s.buf t) a1.inv
      generalize W.flushImpl ty (W.put s.buf t) = r at *
      by_cases hr : r.1 = false
      · rw [if_pos hr]
        exact ⟨.inr ⟨.inr ⟨r.2, rfl, c1.1, c1.2.2.1 hr, a1.parts.ok, a1.buf⟩, rfl⟩, nofun⟩
      · rw [if_neg hr]
        obtain ⟨b1, b2, b3⟩ := c1.2.1 ((Bool.not_eq_false _).mp hr)
        rw [overlay_nil] at b1
        exact fin r.2 ⟨a1.parts, a1.lims, a1.buf, c1.1, b3.trans a1.okT, by rw [b2, b1, a1.posT]; rfl, by rw [b1]; exact a1.dat, a1.start, a1.lim, a1.pos, a1.le⟩
          (by rw [b1]; exact a2)
    cases ty with
    | fromObject => exact fin _ a1 a2
    | fromProcess => exact imp
    | fromMachine => exact imp

theorem flushBehind_bad {ty : FlushType} {s : Sp σ} (h : Bad W Inv0 C s) :
    (s.flushBehind W close ty).1 = false ∧ Bad W Inv0 C (s.flushBehind W close ty).2 := by
  unfold flushBehind
  rcases h with h | ⟨t, hs, h⟩
  · rw [if_pos h.1]
    exact ⟨rfl, .inl h⟩
  · rw [if_neg (by rw [h.2.2.1]; nofun), hs]
    dsimp only
    have a1 := syncBuffer_bad L h
    have imp : (if (W.flushImpl ty (W.put s.buf t)).1 = false then (false, { s.syncBuffer W t with shard := some (W.flushImpl ty (W.put s.buf t)).2 })
            else (s.syncBuffer W t).closeShard close (W.flushImpl ty (W.put s.buf t)).2).1 = false ∧
        Bad W Inv0 C (if (W.flushImpl ty (W.put s.buf t)).1 = false then (false, { s.syncBuffer W t with shard := some (W.flushImpl ty (W.put s.buf t)).2 })
            else (s.syncBuffer W t).closeShard close (W.flushImpl ty (W.put s.buf t)).2).2 := by
      obtain ⟨c1, -⟩ := L.flushImpl ty (W.put s.buf t) a1.1
      have ho := (c1.2.2.2.1 a1.2.1).1
      generalize W.flushImpl ty (W.put s.buf t) = r at *
      by_cases hr : r.1 = false
      · rw [if_pos hr]
        exact ⟨rfl, .inr ⟨r.2, rfl, c1.1, ho, a1.2.2.1, a1.2.2.2⟩⟩
      · rw [if_neg hr]
        obtain ⟨b1, b2⟩ := closeShard_bad (s := s.syncBuffer W t) hclose hC c1.1 ho
        exact ⟨b1, .inl b2⟩
    cases ty with
    | fromObject =>
      obtain ⟨b1, b2⟩ := closeShard_bad (s := s.syncBuffer W t) hclose hC a1.1 a1.2.1
      exact ⟨b1, .inl b2⟩
    | fromProcess => exact imp
    | fromMachine => exact imp

theorem flushImpl_spec {D : Bytes} {ty : FlushType} {s : Sp σ} (h : Live W empty view Inv0 false N D s) :
    Res W empty view Inv0 false N C D (s.flushImpl W close ty) ∧
    ((s.flushImpl W close ty).1 = true → (s.flushImpl W close ty).2.shard = none ∧ (s.flushImpl W close ty).2.scratch = none ∧
      ((s.flushImpl W close ty).2.closed = (s.sync W close).2.closed ∨ ∃ p, (s.flushImpl W close ty).2.closed = (s.sync W close).2.closed ++ [p])) := by
  obtain ⟨a1, a2⟩ := sync_spec L hclose hC h
  unfold flushImpl
  dsimp only
  rcases a1 with ⟨a1, a3⟩ | ⟨a1, a3⟩
  · rw [if_neg (by rw [a3]; nofun)]
    exact flushBehind_spec L hC a1 a2
  · rw [if_pos a3]
    exact ⟨.inr ⟨a1, rfl⟩, nofun⟩

theorem flushImpl_bad {ty : FlushType} {s : Sp σ} (h : Bad W Inv0 C s) :
    (s.flushImpl W close ty).1 = false ∧ Bad W Inv0 C (s.flushImpl W close ty).2 := by
  unfold flushImpl
  rw [sync_bad h]
  dsimp only
  rw [if_neg nofun]
  exact flushBehind_bad L hclose hC h

end

include L hC in
theorem rehint_spec {D : Bytes} {s' : Sp σ} (h0 : Live W empty view Inv0 F N D s') :
    Live W empty view Inv0 F N D (s'.rehint W) ∨ Bad W Inv0 C (s'.rehint W) := by
  unfold rehint
  split
  · exact .inl h0
  · rename_i t hs
    dsimp only
    obtain ⟨D', e, h1⟩ := h0.split
    obtain ⟨a1, a2⟩ := syncBuffer_spec L h1 (t := t) hs rfl
    have a1 : Mid W empty view Inv0 F N D' (W.put s'.buf t) (({ s' with scratch := none } : Sp σ).syncBuffer W t) := a1
    have a2 : empty = false → view (W.put s'.buf t) ≠ [] := a2
    generalize (({ s' with scratch := none } : Sp σ).syncBuffer W t) = a at *
    obtain ⟨b1, b2, b3, -⟩ := L.setHint (some a.shardHint) _ a1.inv
    cases ho : W.ok (W.setHint (some a.shardHint) (W.put s'.buf t)) with
    | false =>
      have hd := makeBuffer_dead a ho (hC _ b1 (.inl ho))
      rw [if_neg (by rw [hd.1]; nofun)]
      exact .inr (.inl hd)
    | true =>
      obtain ⟨c1, c2⟩ := b2 ho
      have hm : Mid W empty view Inv0 F N D' (W.setHint (some a.shardHint) (W.put s'.buf t)) a :=
        ⟨a1.parts, a1.lims, a1.buf, b1, ho, by rw [c2, c1, a1.posT], by rw [c1]; exact a1.dat, a1.start, a1.lim, a1.pos, a1.le⟩
      obtain ⟨d1, -⟩ := makeBuffer_live hm (by rw [c1]; exact a2)
      rw [if_pos d1.parts.ok]
      left
      have := d1.join (makeBuffer_scratch a1.buf.2.2) s'.scratch
      rw [e]
      exact this

include L hC in
theorem rehint_bad {t : σ} {s : Sp σ} (hs : s.shard = some t) (h : MidBad W Inv0 t s) : Bad W Inv0 C (s.rehint W) := by
  unfold rehint
  split
  · rename_i hn
    rw [hs] at hn
    cases hn
  · rename_i u hu
    rw [hs] at hu
    cases hu
    dsimp only
    have a1 := L.put s.buf t h.1 (by rw [h.2.2.2.1]; exact Nat.zero_le _)
    have ho : W.ok (W.put s.buf t) = false := a1.2.2.2.2.1.trans h.2.1
    generalize (({ s with scratch := none } : Sp σ).syncBuffer W t) = a
    obtain ⟨b1, -, b3, -⟩ := L.setHint (some a.shardHint) _ a1.1
    have hd := makeBuffer_dead a (b3 ho) (hC _ b1 (.inl (b3 ho)))
    rw [if_neg (by rw [hd.1]; nofun)]
    exact .inl hd

include L hC in
theorem setHint_spec {D : Bytes} {n : Option Nat} {s : Sp σ} (h : Live W empty view Inv0 F N D s) :
    Live W empty view Inv0 F N D (s.setHint W n) ∨ Bad W Inv0 C (s.setHint W n) := by
  unfold setHint
  rw [if_neg (by rw [h.parts.ok]; nofun)]
  exact rehint_spec L hC ⟨⟨h.parts.ok, h.parts.rest, h.parts.closed⟩, h.none, h.some⟩

include L hC in
theorem setHint_bad {n : Option Nat} {s : Sp σ} (h : Bad W Inv0 C s) : Bad W Inv0 C (s.setHint W n) := by
  unfold setHint
  rcases h with h | ⟨t, hs, h⟩
  · rw [if_pos h.1]
    exact .inl h
  · rw [if_neg (by rw [h.2.2.1]; nofun)]
    exact rehint_bad L hC (t := t) hs h

theorem unsupported_live (s : Sp σ) (hc : C) : Bad W Inv0 C (s.unsupported W close) := .inl (fail_dead _ (.inr hc))

include hC in
theorem unsupported_bad {s : Sp σ} (h : Bad W Inv0 C s) : Bad W Inv0 C (s.unsupported W close) := by
  unfold unsupported
  rw [sync_bad h]
  refine .inl (fail_dead _ ?_)
  rcases h with h | ⟨t, hs, h⟩
  · exact h.2.2.2.2
  · exact .inr (hC t h.1 (.inl h.2.1))

/-! ### Public functions -/

section
include L hclose hC

theorem push_spec {D : Bytes} {n rec : Nat} {s : Sp σ} (h : Live W empty view Inv0 F N D s) :
    Res W empty view Inv0 F N C D ((ops W close empty room).push n rec s) ∧
    (((ops W close empty room).push n rec s).1 = true → n ≤ ((ops W close empty room).push n rec s).2.avail) := by
  unfold WriterOps.push
  split
  · rename_i hn
    exact ⟨.inl ⟨h, rfl⟩, fun _ => hn⟩
  · exact pushSlow_spec L hclose hC h

theorem push_bad {n rec : Nat} {s : Sp σ} (h : Bad W Inv0 C s) :
    Bad W Inv0 C ((ops W close empty room).push n rec s).2 ∧ (((ops W close empty room).push n rec s).1 = true → n = 0) := by
  unfold WriterOps.push
  split
  · rename_i hn
    have hn : n ≤ s.avail := hn
    rw [(bad_avail h).1] at hn
    exact ⟨h, fun _ => by omega⟩
  · obtain ⟨a1, a2⟩ := pushSlow_bad (empty := empty) (room := room) (n := n) (rec := rec) L hclose hC h
    exact ⟨a2, fun hr => (Bool.false_ne_true (a1.symm.trans hr)).elim⟩

/-- What holds after a call. -/
theorem call_spec {D : Bytes} {op : WOp} {s : Sp σ} (h : Live W empty view Inv0 F N D s) (hF : F = true → ∀ ty, op ≠ .flush ty)
    (hU : op.unsupported = true → C) :
    (Live W empty view Inv0 F N (D ++ op.bytes) ((ops W close empty room).call op s).2 ∧
      (((ops W close empty room).call op s).1 = true ∨ op = .supportsRandomAccess)) ∨ Bad W Inv0 C ((ops W close empty room).call op s).2 := by
  have res : ∀ {D' : Bytes} {r : Bool × Sp σ} (o : WOp), Res W empty view Inv0 F N C D' r →
      (Live W empty view Inv0 F N D' r.2 ∧ (r.1 = true ∨ o = .supportsRandomAccess)) ∨ Bad W Inv0 C r.2 :=
    fun o h => h.elim (fun h => .inl ⟨h.1, .inl h.2⟩) (fun h => .inr h.1)
  have ref : ∀ (o : WOp) (fs : List Bytes), (Live W empty view Inv0 F N (D ++ fs.flatten) ((ops W close empty room).writeRef fs s).2 ∧
      (((ops W close empty room).writeRef fs s).1 = true ∨ o = .supportsRandomAccess)) ∨ Bad W Inv0 C ((ops W close empty room).writeRef fs s).2 := by
    intro o fs
    unfold RefOps.writeRef
    by_cases hb : fs.flatten.length ≤ (ops W close empty room).avail s ∧ fs.flatten.length ≤ kMaxBytesToCopy
    · rw [if_pos hb]
      exact .inl ⟨put_spec h hb.1, .inl rfl⟩
    · rw [if_neg hb]
      refine res o (refSlow_spec L hclose hC h (fun h0 => hb ?_))
      rw [h0]
      exact ⟨Nat.zero_le _, Nat.zero_le _⟩
  cases op with
  | push n rec =>
    show (Live W empty view Inv0 F N (D ++ []) _ ∧ _) ∨ _
    rw [List.append_nil]
    exact res _ (push_spec L hclose hC h).1
  | writeChar b =>
    obtain ⟨a1, a2⟩ := push_spec (room := room) (n := 1) (rec := 0) L hclose hC h
    show (Live W empty view Inv0 F N (D ++ [b]) ((ops W close empty room).writeChar b s).2 ∧ (((ops W close empty room).writeChar b s).1 = true ∨ _)) ∨
      Bad W Inv0 C ((ops W close empty room).writeChar b s).2
    unfold WriterOps.writeChar
    dsimp only
    generalize (ops W close empty room).push 1 0 s = r at *
    rcases a1 with ⟨a1, a3⟩ | ⟨a1, a3⟩
    · rw [if_neg (by rw [a3]; nofun)]
      exact .inl ⟨put_spec a1 (a2 a3), .inl rfl⟩
    · rw [if_pos a3]
      exact .inr a1
  | write bs =>
    show (Live W empty view Inv0 F N (D ++ bs) ((ops W close empty room).write bs s).2 ∧ (((ops W close empty room).write bs s).1 = true ∨ _)) ∨
      Bad W Inv0 C ((ops W close empty room).write bs s).2
    unfold WriterOps.write
    by_cases hb : bs.length ≤ (ops W close empty room).avail s
    · rw [if_pos hb]
      exact .inl ⟨put_spec h hb, .inl rfl⟩
    · rw [if_neg hb]
      exact res _ (writeSlow_spec L hclose hC h (fun h0 => hb (by rw [h0]; exact Nat.zero_le _)))
  | writeExternal bs =>
    have := ref (.writeExternal bs) [bs]
    rw [List.flatten_singleton] at this
    exact this
  | writeChain fs => exact ref (.writeChain fs) fs
  | fill n b =>
    show (Live W empty view Inv0 F N (D ++ List.replicate n b) ((ops W close empty room).fill n b s).2 ∧ (((ops W close empty room).fill n b s).1 = true ∨ _)) ∨
      Bad W Inv0 C ((ops W close empty room).fill n b s).2
    unfold WriterOps.fill
    by_cases hb : n ≤ (ops W close empty room).avail s ∧ n ≤ kMaxBytesToCopy
    · rw [if_pos hb]
      exact .inl ⟨put_spec h (by rw [List.length_replicate]; exact hb.1), .inl rfl⟩
    · rw [if_neg hb]
      refine res _ (fillSlow_spec L hclose hC h (Nat.pos_of_ne_zero (fun h0 => hb ?_)))
      rw [h0]
      exact ⟨Nat.zero_le _, Nat.zero_le _⟩
  | flush ty =>
    cases F with
    | true => exact (hF rfl ty rfl).elim
    | false =>
      show (Live W empty view Inv0 false N (D ++ []) _ ∧ _) ∨ _
      rw [List.append_nil]
      exact res _ (flushImpl_spec L hclose hC h).1
  | seek q =>
    show (Live W empty view Inv0 F N (D ++ []) ((ops W close empty room).seek q s).2 ∧ (((ops W close empty room).seek q s).1 = true ∨ _)) ∨
      Bad W Inv0 C ((ops W close empty room).seek q s).2
    rw [List.append_nil]
    unfold WriterOps.seek
    split
    · exact .inl ⟨h, .inl rfl⟩
    · exact .inr (unsupported_live s (hU rfl))
  | size => exact .inr (unsupported_live s (hU rfl))
  | truncate n => exact .inr (unsupported_live s (hU rfl))
  | readMode q => exact .inr (unsupported_live s (hU rfl))
  | supportsRandomAccess =>
    show (Live W empty view Inv0 F N (D ++ []) s ∧ _) ∨ _
    rw [List.append_nil]
    exact .inl ⟨h, .inr rfl⟩
  | setWriteSizeHint n =>
    show (Live W empty view Inv0 F N (D ++ []) (s.setHint W n) ∧ _) ∨ Bad W Inv0 C (s.setHint W n)
    rw [List.append_nil]
    exact (setHint_spec L hC h).imp (fun h => ⟨h, .inl rfl⟩) id

/-- Failures are kept. -/
theorem call_bad {op : WOp} {s : Sp σ} (h : Bad W Inv0 C s) : Bad W Inv0 C ((ops W close empty room).call op s).2 ∧
    (((ops W close empty room).call op s).1 = true → op.bytes = []) := by
  have put : ∀ bs : Bytes, bs.length ≤ s.avail → Bad W Inv0 C (s.put bs) ∧ bs = [] := by
    intro bs hb
    rw [put_bad h hb]
    rw [(bad_avail h).1] at hb
    exact ⟨h, List.length_eq_zero_iff.mp (by omega)⟩
  have ref : ∀ (fs : List Bytes), Bad W Inv0 C ((ops W close empty room).writeRef fs s).2 ∧ (((ops W close empty room).writeRef fs s).1 = true → fs.flatten = []) := by
    intro fs
    unfold RefOps.writeRef
    by_cases hb : fs.flatten.length ≤ (ops W close empty room).avail s ∧ fs.flatten.length ≤ kMaxBytesToCopy
    · rw [if_pos hb]
      exact ⟨(put _ hb.1).1, fun _ => (put _ hb.1).2⟩
    · rw [if_neg hb]
      obtain ⟨a1, a2⟩ := refSlow_bad L hclose hC h (fs := fs) (fun h0 => hb (by rw [h0]; exact ⟨Nat.zero_le _, Nat.zero_le _⟩))
      exact ⟨a2, fun hr => (Bool.false_ne_true (a1.symm.trans hr)).elim⟩
  cases op with
  | push n rec => exact ⟨(push_bad L hclose hC h).1, fun _ => rfl⟩
  | writeChar b =>
    obtain ⟨a1, a2⟩ := push_bad (empty := empty) (room := room) (n := 1) (rec := 0) L hclose hC h
    show Bad W Inv0 C ((ops W close empty room).writeChar b s).2 ∧ (((ops W close empty room).writeChar b s).1 = true → _)
    unfold WriterOps.writeChar
    dsimp only
    generalize (ops W close empty room).push 1 0 s = r at *
    have hr : r.1 = false := by
      cases hr : r.1 with
      | false => rfl
      | true => exact (Nat.one_ne_zero (a2 hr)).elim
    rw [if_pos hr]
    exact ⟨a1, nofun⟩
  | write bs =>
    show Bad W Inv0 C ((ops W close empty room).write bs s).2 ∧ (((ops W close empty room).write bs s).1 = true → bs = [])
    unfold WriterOps.write
    by_cases hb : bs.length ≤ (ops W close empty room).avail s
    · rw [if_pos hb]
      exact ⟨(put _ hb).1, fun _ => (put _ hb).2⟩
    · rw [if_neg hb]
      obtain ⟨a1, a2⟩ := writeSlow_bad L hclose hC h (bs := bs) (fun h0 => hb (by rw [h0]; exact Nat.zero_le _))
      exact ⟨a2, fun hr => (Bool.false_ne_true (a1.symm.trans hr)).elim⟩
  | writeExternal bs =>
    have := ref [bs]
    rw [List.flatten_singleton] at this
    exact this
  | writeChain fs => exact ref fs
  | fill n b =>
    show Bad W Inv0 C ((ops W close empty room).fill n b s).2 ∧ (((ops W close empty room).fill n b s).1 = true → List.replicate n b = [])
    unfold WriterOps.fill
    by_cases hb : n ≤ (ops W close empty room).avail s ∧ n ≤ kMaxBytesToCopy
    · rw [if_pos hb]
      have := put (List.replicate n b) (by rw [List.length_replicate]; exact hb.1)
      exact ⟨this.1, fun _ => this.2⟩
    · rw [if_neg hb]
      obtain ⟨a1, a2⟩ := fillSlow_bad L hclose hC h (n := n) (b := b) (Nat.pos_of_ne_zero (fun h0 => hb (by rw [h0]; exact ⟨Nat.zero_le _, Nat.zero_le _⟩)))
      exact ⟨a2, fun hr => (Bool.false_ne_true (a1.symm.trans hr)).elim⟩
  | flush ty => exact ⟨(flushImpl_bad L hclose hC h).2, fun _ => rfl⟩
  | seek q =>
    show Bad W Inv0 C ((ops W close empty room).seek q s).2 ∧ _
    refine ⟨?_, fun _ => rfl⟩
    unfold WriterOps.seek
    split
    · exact h
    · exact unsupported_bad hC h
  | size => exact ⟨unsupported_bad hC h, fun _ => rfl⟩
  | truncate n => exact ⟨unsupported_bad hC h, fun _ => rfl⟩
  | readMode q => exact ⟨unsupported_bad hC h, fun _ => rfl⟩
  | supportsRandomAccess => exact ⟨h, fun _ => rfl⟩
  | setWriteSizeHint n => exact ⟨setHint_bad L hC h, fun _ => rfl⟩

theorem callAll_bad {os : List WOp} {s : Sp σ} (h : Bad W Inv0 C s) : Bad W Inv0 C (s.callAll W close empty room os).2 := by
  induction os generalizing s with
  | nil => exact h
  | cons op os ih => exact ih (call_bad L hclose hC h).1

/-- After any sequence of calls, all data written are in closed shards, the open shard, the buffer and scratch; or the writer is going to fail. -/
theorem callAll_spec {D : Bytes} {os : List WOp} {s : Sp σ} (h : Live W empty view Inv0 F N D s) (hF : F = true → ∀ ty, WOp.flush ty ∉ os)
    (hU : ∀ op ∈ os, op.unsupported = true → C) :
    (Live W empty view Inv0 F N (D ++ (os.map WOp.bytes).flatten) (s.callAll W close empty room os).2 ∧
      ∀ p ∈ os.zip (s.callAll W close empty room os).1, p.2 = true ∨ p.1 = .supportsRandomAccess) ∨
    Bad W Inv0 C (s.callAll W close empty room os).2 := by
  induction os generalizing D s with
  | nil => exact .inl ⟨by rw [List.map_nil, List.flatten_nil, List.append_nil]; exact h, nofun⟩
  | cons op os ih =>
    rcases call_spec (room := room) (op := op) L hclose hC h (fun hf ty e => hF hf ty (by rw [e]; exact List.mem_cons_self))
      (hU op List.mem_cons_self) with ⟨a1, a2⟩ | a1
    · rcases ih a1 (fun hf ty hm => hF hf ty (List.mem_cons_of_mem _ hm)) (fun o ho => hU o (List.mem_cons_of_mem _ ho)) with ⟨b1, b2⟩ | b1
      · refine .inl ⟨?_, fun p hp => ?_⟩
        · rw [List.map_cons, List.flatten_cons, ← List.append_assoc]
          exact b1
        · have hp : p ∈ (op, ((ops W close empty room).call op s).1) :: os.zip (((ops W close empty room).call op s).2.callAll W close empty room os).1 := hp
          rcases List.mem_cons.mp hp with hp | hp
          · subst hp
            exact a2
          · exact b2 p hp
      · exact .inr b1
    · exact .inr (callAll_bad (s := ((ops W close empty room).call op s).2) L hclose hC a1)

end

theorem Live.weaken {D : Bytes} {s : Sp σ} (h : Live W empty view Inv0 F N D s) : Live W empty view Inv0 false N D s :=
  ⟨⟨h.parts.ok, h.parts.rest, fun p hp => ⟨(h.parts.closed p hp).1, (h.parts.closed p hp).2.1, nofun⟩⟩, h.none, h.some⟩

theorem init_live {shards : List (σ × Nat)} (h : ∀ p ∈ shards, Inv0 p.1 ∧ view p.1 = [] ∧ W.pos p.1 = 0 ∧ 0 < p.2) :
    Live W empty view Inv0 F (shards.map (·.2)) [] (init shards) :=
  ⟨⟨rfl, h, nofun⟩, fun _ => ⟨rfl, rfl, rfl, rfl, rfl⟩, nofun⟩

end Sp
end Riegeli.Wtr
