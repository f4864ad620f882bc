import Verif.MessageReaderProofs
/-!
# Proofs about `SerializedMessageReader` with a `Cord`
-/
namespace Riegeli.Msg
open Riegeli.Vio

/-- The rest of the `Cord` is the message, followed by what is after it. -/
def Window (src : List Bytes) (view after : Bytes) : Prop := Chunks src ∧ src.flatten = view ++ after

theorem Window.length {src : List Bytes} {v t : Bytes} (h : Window src v t) : src.flatten.length - t.length = v.length := by
  rw [h.2, List.length_append]; omega

/-- What reading a varint from the message must do, if the result is `spec`. -/
def WinPost {α : Type} (v t : Bytes) (spec : Option (α × Bytes)) (r : Res α × List Bytes) : Prop :=
  match spec with
  | none => r.1 = .fail ∧ (t.length < r.2.flatten.length ↔ v ≠ []) ∧ (v = [] → r.2.flatten = t ∧ Chunks r.2)
  | some (a, rest) => r.1 = .ok a ∧ Window r.2 rest t

theorem cord_post {α : Type} {w : Nat} {upd : Nat → Nat → α → α} {canonical : Bool} (hw : 14 < w) (init : α) {src : List Bytes} {v t : Bytes}
    (h : Window src v t) : WinPost v t (scan w canonical upd 0 init v) (fromCord w canonical upd (src.flatten.length - t.length) init src) := by
  have := fromCord_spec (canonical := canonical) (upd := upd) hw (src.flatten.length - t.length) init src h.1 (by omega)
  rw [h.length, show src.flatten.take v.length = v by rw [h.2]; simp] at this
  rw [h.length]
  generalize fromCord w canonical upd v.length init src = R at this ⊢
  generalize scan w canonical upd 0 init v = spec at this ⊢
  obtain ⟨R, src'⟩ := R
  obtain ⟨h1, h2⟩ := this
  cases spec with
  | none =>
    obtain ⟨h2, k, h3, h4⟩ := h2
    dsimp only at h1 h2 h3
    subst h2
    refine ⟨rfl, ?_, fun h0 => ?_⟩
    · rw [h3, h.2, List.length_drop, List.length_append]
      have : v ≠ [] ↔ 0 < v.length := by rw [List.length_pos_iff]
      rw [this]
      omega
    · subst h0
      have : k = 0 := by simpa using h4
      subst this
      exact ⟨by rw [h3, h.2]; simp, h1⟩
  | some p =>
    obtain ⟨a, rest⟩ := p
    obtain ⟨h2, k, h3, h4, h5⟩ := h2
    dsimp only at h1 h2 h4 h5
    subst h2
    refine ⟨rfl, h1, ?_⟩
    rw [h4, h.2, h5, List.drop_append_of_le_length h3, h.2, List.take_left' rfl]

theorem cord_read {w : Nat} (hw : 14 < w) {src : List Bytes} {v t : Bytes} (h : Window src v t) :
    WinPost v t (readVarint w false v) (fromCord w false (readUpd w) (src.flatten.length - t.length) 0 src) := by
  have := cord_post (canonical := false) (upd := readUpd w) hw 0 h
  rwa [scan_read v 0 0 (by unfold kMaxLengthVarint; omega)] at this

theorem cord_skip {src : List Bytes} {v t : Bytes} (h : Window src v t) :
    WinPost v t ((readVarint 64 false v).map (fun p => ((), p.2))) (fromCord 64 false skipUpd (src.flatten.length - t.length) () src) := by
  have := cord_post (canonical := false) (upd := skipUpd) (w := 64) (by omega) () h
  rw [scan_skip v 0 () (by decide)] at this
  have hc := copy_read v
  have he : (copyVarintLoop 64 false 0 v).map (fun p => ((), p.2)) = (readVarint 64 false v).map (fun p => ((), p.2)) := by
    show (copyVarint 64 false v).map _ = _
    cases h : copyVarint 64 false v with
    | none => rw [hc.1.mp h]; rfl
    | some p =>
      obtain ⟨x, hx⟩ := hc.2 _ _ h
      rw [hx]; rfl
  rwa [he] at this

theorem cordReadSlow_spec : ∀ (src : List Bytes) (n : Nat), Chunks src → n ≤ src.flatten.length →
    ∃ src', cordReadSlow n src = some (src.flatten.take n, src') ∧ src'.flatten = src.flatten.drop n ∧ Chunks src'
  | [], n, h, hn => by
    have : n = 0 := by simpa using hn
    rw [cordReadSlow, if_pos this]
    exact ⟨[], by simp, by simp, h⟩
  | chunk :: cs, n, h, hn => by
    rw [cordReadSlow]
    have hcs : Chunks cs := fun c' hc' => h c' (List.mem_cons_of_mem _ hc')
    rw [List.flatten_cons, List.length_append] at hn
    split
    · obtain ⟨s', h1, h2, h3⟩ := cordReadSlow_spec cs (n - chunk.length) hcs (by omega)
      rw [h1, List.flatten_cons]
      refine ⟨s', ?_, ?_, h3⟩
      · rw [Option.map_some, List.take_append, List.take_of_length_le (l := chunk) (by omega)]
      · rw [h2, List.drop_append, List.drop_eq_nil_of_le (by omega : chunk.length ≤ n), List.nil_append]
    · obtain ⟨h1, h2⟩ := cordAdvance_spec (chunk :: cs) n h
      exact ⟨_, by rw [List.flatten_cons, List.take_append_of_le_length (by omega)], h1, h2⟩

theorem cordRead_spec (src : List Bytes) (n : Nat) (h : Chunks src) (hn : n ≤ src.flatten.length) :
    ∃ src', cordRead n src = some (src.flatten.take n, src') ∧ src'.flatten = src.flatten.drop n ∧ Chunks src' := by
  unfold cordRead
  split
  · rename_i h0
    subst h0
    exact ⟨src, by simp, by simp, h⟩
  · rename_i h0
    match src with
    | [] => exact absurd (by simpa using hn) h0
    | chunk :: cs =>
      dsimp only
      split
      · exact cordReadSlow_spec _ n h hn
      · obtain ⟨h1, h2⟩ := cordAdvance_spec (chunk :: cs) n h
        exact ⟨_, by rw [List.flatten_cons, List.take_append_of_le_length (by omega)], h1, h2⟩

section
variable {γ : Type}

/-- An action for a length-delimited field of a `Cord` does what the specification says, and reads to the end of the field or fails. -/
def CordRefines (a : CordAct γ) (b : StrAct γ) : Prop :=
  ∀ n c src, Chunks src → n ≤ src.flatten.length → ∃ r src', a n c src = some (r, src') ∧ r = b (src.flatten.take n) c ∧
    (r.1 = true → src'.flatten = src.flatten.drop n ∧ Chunks src')

theorem Window.take {src : List Bytes} {v t : Bytes} (h : Window src v t) {n : Nat} (hn : n ≤ v.length) :
    n ≤ src.flatten.length ∧ src.flatten.take n = v.take n ∧ ∀ src', src'.flatten = src.flatten.drop n → Chunks src' → Window src' (v.drop n) t := by
  refine ⟨by rw [h.2, List.length_append]; omega, by rw [h.2, List.take_append_of_le_length hn], fun src' h1 h2 => ⟨h2, ?_⟩⟩
  rw [h1, h.2, List.drop_append_of_le_length hn]

theorem cordField_spec {hs : List (Handler γ (CordAct γ))} {ms : List (Meaning γ)} (H : RefinesAll CordRefines hs ms) (f wt : Nat) (c : γ) {src : List Bytes}
    {v t : Bytes} (h : Window src v t) :
    ∃ r s', cordField hs t.length f wt c src = some (r, s') ∧
    match body f wt v with
    | none => r = (false, c)
    | some (it, rest) => r = Meaning.handle ms it c ∧ (r.1 = true → Window s' rest t) := by
  unfold cordField
  split <;> try simp only [body_0, body_1, body_2, body_3, body_4, body_5]
  · split
    · have hr := cord_read (w := 64) (by omega) h
      generalize fromCord 64 false (readUpd 64) (src.flatten.length - t.length) 0 src = R at hr ⊢
      obtain ⟨R, src'⟩ := R
      cases hv : readVarint 64 false v with
      | none =>
        rw [hv] at hr
        obtain ⟨rfl, -⟩ := hr
        exact ⟨_, _, rfl, rfl⟩
      | some p =>
        rw [hv] at hr
        obtain ⟨rfl, hw⟩ := hr
        exact ⟨_, _, rfl, act_varint H .., fun _ => hw⟩
    · rename_i hn
      have hn := (Bool.not_eq_true _).mp hn
      have hr := cord_skip h
      generalize fromCord 64 false skipUpd (src.flatten.length - t.length) () src = R at hr ⊢
      obtain ⟨R, src'⟩ := R
      cases hv : readVarint 64 false v with
      | none =>
        rw [hv] at hr
        obtain ⟨rfl, -⟩ := hr
        exact ⟨_, _, rfl, rfl⟩
      | some p =>
        rw [hv] at hr
        obtain ⟨rfl, hw⟩ := hr
        exact ⟨_, _, rfl, (handle_varint_none H hn ..).symm, fun _ => hw⟩
  · rw [h.length]
    split
    · exact ⟨_, _, rfl, rfl⟩
    · rename_i hl
      obtain ⟨t1, t2, t3⟩ := h.take (n := 4) (by omega)
      split
      · obtain ⟨s', e1, e2, e3⟩ := cordRead_spec src 4 h.1 t1
        rw [e1, t2]
        exact ⟨_, _, rfl, act_fixed32 H .., fun _ => t3 s' e2 e3⟩
      · rename_i hn
        obtain ⟨e1, e2⟩ := cordAdvance_spec src 4 h.1
        exact ⟨_, _, rfl, (handle_fixed32_none H ((Bool.not_eq_true _).mp hn) ..).symm, fun _ => t3 _ e1 e2⟩
  · rw [h.length]
    split
    · exact ⟨_, _, rfl, rfl⟩
    · rename_i hl
      obtain ⟨t1, t2, t3⟩ := h.take (n := 8) (by omega)
      split
      · obtain ⟨s', e1, e2, e3⟩ := cordRead_spec src 8 h.1 t1
        rw [e1, t2]
        exact ⟨_, _, rfl, act_fixed64 H .., fun _ => t3 s' e2 e3⟩
      · rename_i hn
        obtain ⟨e1, e2⟩ := cordAdvance_spec src 8 h.1
        exact ⟨_, _, rfl, (handle_fixed64_none H ((Bool.not_eq_true _).mp hn) ..).symm, fun _ => t3 _ e1 e2⟩
  · have hr := cord_read (w := 32) (by omega) h
    generalize fromCord 32 false (readUpd 32) (src.flatten.length - t.length) 0 src = R at hr ⊢
    obtain ⟨R, src'⟩ := R
    cases hv : readVarint 32 false v with
    | none =>
      rw [hv] at hr
      obtain ⟨rfl, -⟩ := hr
      exact ⟨_, _, rfl, rfl⟩
    | some p =>
      obtain ⟨n, v'⟩ := p
      rw [hv] at hr
      obtain ⟨rfl, hw⟩ := hr
      dsimp only at hw ⊢
      by_cases h1 : 2 ^ 31 - 1 < n
      · rw [if_pos h1, if_pos h1]; exact ⟨_, _, rfl, rfl⟩
      · rw [if_neg h1, if_neg h1, hw.length]
        by_cases h2 : v'.length < n
        · rw [if_pos h2, if_pos h2]; exact ⟨_, _, rfl, rfl⟩
        · rw [if_neg h2, if_neg h2]
          obtain ⟨t1, t2, t3⟩ := hw.take (n := n) (by omega)
          rcases accepted_len H f with ⟨e1, e2⟩ | ⟨a, b, e1, e2, e3⟩
          · rw [e1]
            obtain ⟨g1, g2⟩ := cordAdvance_spec src' n hw.1
            exact ⟨_, _, rfl, (e2 ..).symm, fun _ => t3 _ g1 g2⟩
          · rw [e1]
            obtain ⟨r, s', g1, g2, g3⟩ := e2 n c src' hw.1 t1
            rw [t2] at g2
            exact ⟨r, s', g1, by rw [e3, g2], fun hr => t3 _ (g3 hr).1 (g3 hr).2⟩
  · exact ⟨_, _, rfl, act_start H .., fun _ => h⟩
  · exact ⟨_, _, rfl, act_stop H .., fun _ => h⟩
  · rename_i h0 h5 h1 h2 h3 h4
    exact ⟨_, _, rfl, by rw [body_none h0 h5 h1 h2 h3 h4]⟩

theorem cordLoopMessage_spec {hs : List (Handler γ (CordAct γ))} {ms : List (Meaning γ)} (H : RefinesAll CordRefines hs ms) (c : γ) {src : List Bytes} {v t : Bytes}
    (h : Window src v t) :
    ∃ r s', cordLoopMessage hs t.length c src = some (r, s') ∧ r = message ms v c ∧ (r.1 = true → s'.flatten = t ∧ Chunks s') := by
  induction hl : v.length using Nat.strongRecOn generalizing src c v with
  | _ l ih =>
    rw [cordLoopMessage, message_eq]
    have hr := cord_read (w := 32) (by omega) h
    generalize fromCord 32 false (readUpd 32) (src.flatten.length - t.length) 0 src = R at hr ⊢
    obtain ⟨R, src'⟩ := R
    cases hv : readVarint 32 false v with
    | none =>
      have hn : next v = none := by unfold next; rw [hv]
      rw [hn]
      rw [hv] at hr
      obtain ⟨rfl, hw, hw0⟩ := hr
      dsimp only at hw hw0 ⊢
      by_cases h0 : v = []
      · rw [if_neg (mt hw.mp (not_not_intro h0)), h0]
        exact ⟨_, _, rfl, rfl, fun _ => hw0 h0⟩
      · rw [if_pos (hw.mpr h0), decide_eq_false (fun h => h0 (List.length_eq_zero_iff.mp h))]
        exact ⟨_, _, rfl, rfl, fun h => (Bool.false_ne_true h).elim⟩
    | some p =>
      obtain ⟨tag, r⟩ := p
      have hn : next v = body (tag / 8) (tag % 8) r := by unfold next; rw [hv]
      have hne : v.length ≠ 0 := fun h => by
        rw [List.length_eq_zero_iff.mp h] at hv; cases hv
      rw [hv] at hr
      obtain ⟨rfl, hw⟩ := hr
      dsimp only at hw ⊢
      rw [(tag_split tag).1, (tag_split tag).2]
      obtain ⟨res, s', e1, e2⟩ := cordField_spec H (tag / 8) (tag % 8) c hw
      rw [e1]
      rw [← hn] at e2
      cases hb : next v with
      | none =>
        rw [hb] at e2
        dsimp only at e2 ⊢
        subst e2
        rw [decide_eq_false hne]
        exact ⟨_, _, rfl, rfl, fun h => (Bool.false_ne_true h).elim⟩
      | some q =>
        obtain ⟨it, rest⟩ := q
        rw [hb] at e2
        dsimp only at e2 ⊢
        obtain ⟨e2, e3⟩ := e2
        rw [← e2]
        obtain ⟨ok, c'⟩ := res
        cases ok with
        | false => exact ⟨_, _, rfl, rfl, fun h => (Bool.false_ne_true h).elim⟩
        | true => exact ih _ (by rw [← hl]; exact next_lt hb) c' (e3 rfl) rfl

theorem window_of {src : List Bytes} {n : Nat} (h : Chunks src) (hn : n ≤ src.flatten.length) :
    Window src (src.flatten.take n) (src.flatten.drop n) ∧ (src.flatten.drop n).length = src.flatten.length - n :=
  ⟨⟨h, (List.take_append_drop ..).symm⟩, List.length_drop ..⟩

/-- `ReadMessage()` from a `Cord`. -/
theorem cordMessage_spec {hs : List (Handler γ (CordAct γ))} {ms : List (Meaning γ)} (H : RefinesAll CordRefines hs ms) : CordRefines (cordMessage hs) (message ms) := by
  intro n c src h hn
  unfold cordMessage
  obtain ⟨hw, hl⟩ := window_of h hn
  rw [← hl]
  exact cordLoopMessage_spec H c hw

theorem messageCord_spec {hs : List (Handler γ (CordAct γ))} {ms : List (Meaning γ)} (H : RefinesAll CordRefines hs ms) : CordRefines (messageCord hs) (message ms) := by
  intro n c src h hn
  unfold messageCord
  obtain ⟨r, s', e1, e2, e3⟩ := cordMessage_spec H n c src h hn
  dsimp only
  rw [e1]
  obtain ⟨ok, c'⟩ := r
  cases ok with
  | false => exact ⟨_, _, rfl, e2, fun h => (Bool.false_ne_true h).elim⟩
  | true =>
    obtain ⟨k1, k2⟩ := e3 rfl
    refine ⟨_, _, rfl, e2, fun _ => ?_⟩
    rw [if_neg (by rw [k1, List.length_drop]; simp)]
    exact ⟨k1, k2⟩

theorem stringCord_spec (a : StrAct γ) : CordRefines (stringCord a) a := by
  intro n c src h hn
  unfold stringCord
  obtain ⟨s', e1, e2, e3⟩ := cordRead_spec src n h hn
  rw [e1]
  exact ⟨_, _, rfl, rfl, fun _ => ⟨e2, e3⟩⟩

theorem packedVarintCordLoop_spec (a : NumAct γ) (c : γ) {src : List Bytes} {v t : Bytes} (h : Window src v t) :
    ∃ r s', packedVarintCordLoop a t.length c src = some (r, s') ∧ r = packedVarints a v c ∧ (r.1 = true → s'.flatten = t ∧ Chunks s') := by
  induction hl : v.length using Nat.strongRecOn generalizing src c v with
  | _ l ih =>
    rw [packedVarintCordLoop, packedVarints_eq]
    have hr := cord_read (w := 64) (by omega) h
    generalize fromCord 64 false (readUpd 64) (src.flatten.length - t.length) 0 src = R at hr ⊢
    obtain ⟨R, src'⟩ := R
    cases hv : readVarint 64 false v with
    | none =>
      rw [hv] at hr
      obtain ⟨rfl, hw, hw0⟩ := hr
      dsimp only at hw hw0 ⊢
      refine ⟨_, _, rfl, ?_, fun h => ?_⟩
      · have : ¬t.length < src'.flatten.length ↔ v.length = 0 := by
          rw [hw, List.length_eq_zero_iff]; exact Decidable.not_not
        rw [decide_eq_decide.mpr this]
      · exact hw0 (Decidable.not_not.mp (mt hw.mpr (of_decide_eq_true h)))
    | some p =>
      obtain ⟨x, r⟩ := p
      rw [hv] at hr
      obtain ⟨rfl, hw⟩ := hr
      dsimp only at hw ⊢
      have hlt : r.length < v.length := by
        obtain ⟨p, e, hp⟩ := (readVarint_of (by omega) _ _ _).mp hv
        have := hp.ne_nil
        rw [e, List.length_append]; omega
      have := ih _ (by rw [← hl]; exact hlt) (a x c).2 hw rfl
      generalize a x c = y at *
      obtain ⟨ok, c'⟩ := y
      cases ok with
      | false => exact ⟨_, _, rfl, rfl, fun h => (Bool.false_ne_true h).elim⟩
      | true => exact this

theorem head_take {src : List Bytes} {n : Nat} (hn : n ≤ (src.headD []).length) : (src.headD []).take n = src.flatten.take n := by
  cases src with
  | nil => rfl
  | cons x xs =>
    have hn : n ≤ x.length := hn
    rw [List.flatten_cons, List.take_append_of_le_length hn]; rfl

theorem packedVarintCord_spec (a : NumAct γ) : CordRefines (packedVarintCord a) (packedVarints a) := by
  intro n c src h hn
  unfold packedVarintCord
  dsimp only
  split
  · rename_i hh
    rw [head_take hh, packedVarintString_spec]
    exact ⟨_, _, rfl, rfl, fun _ => cordAdvance_spec src n h⟩
  · obtain ⟨hw, hl⟩ := window_of h hn
    rw [← hl]
    exact packedVarintCordLoop_spec a c hw

theorem packedFixedCordLoop_spec {size : Nat} (hs : 0 < size) (a : NumAct γ) : ∀ (k : Nat) (c : γ) (src : List Bytes), Chunks src → k * size ≤ src.flatten.length →
    ∃ r s', packedFixedCordLoop size a (k * size) c src = some (r, s') ∧ r = feed a (fixeds size k (src.flatten.take (k * size))) c ∧
      (r.1 = true → s'.flatten = src.flatten.drop (k * size) ∧ Chunks s')
  | 0, c, src, h, _ => by
    rw [packedFixedCordLoop, if_pos (by omega)]
    exact ⟨_, _, rfl, rfl, fun _ => ⟨by simp, h⟩⟩
  | k + 1, c, src, h, hn => by
    have hm : (k + 1) * size = k * size + size := Nat.succ_mul ..
    generalize hN : (k + 1) * size = N at *
    rw [packedFixedCordLoop, if_neg (by omega)]
    obtain ⟨s', e1, e2, e3⟩ := cordRead_spec src size h (by omega)
    rw [e1]
    dsimp only
    have ht : (src.flatten.take N).take size = src.flatten.take size := by rw [List.take_take, Nat.min_eq_left (by omega)]
    have hd : (src.flatten.take N).drop size = (src.flatten.drop size).take (k * size) := by
      rw [List.drop_take, show N - size = k * size by omega]
    obtain ⟨r, s2, g1, g2, g3⟩ := packedFixedCordLoop_spec hs a k (a (leNat (src.flatten.take size)) c).2 s' e3 (by rw [e2, List.length_drop]; omega)
    rw [e2] at g2
    rw [e2, List.drop_drop, show size + k * size = N by omega] at g3
    rw [fixeds, ht, hd, feed, show N - size = k * size by omega]
    generalize a (leNat (src.flatten.take size)) c = x at *
    obtain ⟨ok, c'⟩ := x
    cases ok with
    | false => exact ⟨_, _, rfl, rfl, fun h => (Bool.false_ne_true h).elim⟩
    | true => exact ⟨r, s2, g1, g2, g3⟩

theorem packedFixedCord_spec {size : Nat} (hs : 0 < size) (a : NumAct γ) : CordRefines (packedFixedCord size a) (packedFixeds size a) := by
  intro n c src h hn
  unfold packedFixedCord packedFixeds
  have hl : (src.flatten.take n).length = n := by rw [List.length_take, Nat.min_eq_left hn]
  rw [hl]
  dsimp only
  by_cases hm : 0 < n % size
  · rw [if_pos hm, if_pos hm]
    exact ⟨_, _, rfl, rfl, fun h => (Bool.false_ne_true h).elim⟩
  · rw [if_neg hm, if_neg hm]
    have hk : n / size * size = n := Nat.div_mul_cancel (Nat.dvd_of_mod_eq_zero (by omega))
    split
    · rename_i hh
      rw [head_take hh, packedFixedString_spec hs a (n / size) _ c (by rw [hl, hk])]
      exact ⟨_, _, rfl, rfl, fun _ => cordAdvance_spec src n h⟩
    · have := packedFixedCordLoop_spec hs a (n / size) c src h (by omega)
      rw [hk] at this
      exact this

end
end Riegeli.Msg
