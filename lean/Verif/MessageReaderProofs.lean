import Verif.MessageReader
import Verif.VarintIoProofs
import Verif.MessageWriterProofs
/-!
# Proofs about `SerializedMessageReader`
-/
namespace Riegeli.Msg
open Riegeli.Vio

/-! ## The specification as functions -/

/-- What follows the tag. -/
def body (f wt : Nat) (r : Bytes) : Option (Item × Bytes) :=
  match wt with
  | 0 => (readVarint 64 false r).map (fun p => (.varint f p.1, p.2))
  | 5 => if r.length < 4 then none else some (.fixed32 f (leNat (r.take 4)), r.drop 4)
  | 1 => if r.length < 8 then none else some (.fixed64 f (leNat (r.take 8)), r.drop 8)
  | 2 =>
    match readVarint 32 false r with
    | none => none
    | some (n, r) => if 2 ^ 31 - 1 < n then none else if r.length < n then none else some (.len f (r.take n), r.drop n)
  | 3 => some (.start f, r)
  | 4 => some (.stop f, r)
  | _ => none

theorem body_none {f wt : Nat} {r : Bytes} (h0 : wt = 0 → False) (h5 : wt = 5 → False) (h1 : wt = 1 → False) (h2 : wt = 2 → False) (h3 : wt = 3 → False)
    (h4 : wt = 4 → False) : body f wt r = none := by
  unfold body
  split
  · exact (h0 rfl).elim
  · exact (h5 rfl).elim
  · exact (h1 rfl).elim
  · exact (h2 rfl).elim
  · exact (h3 rfl).elim
  · exact (h4 rfl).elim
  · rfl

theorem body_0 (f : Nat) (r : Bytes) : body f 0 r = (readVarint 64 false r).map (fun p => (.varint f p.1, p.2)) := rfl
theorem body_1 (f : Nat) (r : Bytes) : body f 1 r = if r.length < 8 then none else some (.fixed64 f (leNat (r.take 8)), r.drop 8) := rfl
theorem body_2 (f : Nat) (r : Bytes) : body f 2 r = match readVarint 32 false r with
    | none => none
    | some (n, r) => if 2 ^ 31 - 1 < n then none else if r.length < n then none else some (.len f (r.take n), r.drop n) := rfl
theorem body_3 (f : Nat) (r : Bytes) : body f 3 r = some (.start f, r) := rfl
theorem body_4 (f : Nat) (r : Bytes) : body f 4 r = some (.stop f, r) := rfl
theorem body_5 (f : Nat) (r : Bytes) : body f 5 r = if r.length < 4 then none else some (.fixed32 f (leNat (r.take 4)), r.drop 4) := rfl

/-- The first field. -/
def next (bs : Bytes) : Option (Item × Bytes) :=
  match readVarint 32 false bs with
  | none => none
  | some (tag, r) => body (tag / 8) (tag % 8) r

theorem readVarint_of {w : Nat} (hw : 7 < w) (bs rest : Bytes) (v : Nat) :
    readVarint w false bs = some (v, rest) ↔ ∃ p, bs = p ++ rest ∧ VarintOf w p v := by
  rw [readVarint_iff hw]
  constructor
  · rintro ⟨p, h1, h2, h3, h4, h5, -⟩
    exact ⟨p, h1, h2, h3, h5, h4⟩
  · rintro ⟨p, h1, h2, h3, h4, h5⟩
    exact ⟨p, h1, h2, h3, h5, h4, fun h => (Bool.false_ne_true h).elim⟩

theorem fixed_split {n : Nat} {r : Bytes} (h : ¬r.length < n) :
    r = little n (leNat (r.take n)) ++ r.drop n ∧ leNat (r.take n) < 256 ^ n := by
  have hl : (r.take n).length = n := by rw [List.length_take]; omega
  constructor
  · rw [little_eq]
    have := leBytes_leNat (r.take n)
    rw [hl] at this
    rw [this, List.take_append_drop]
  · have := leNat_lt (r.take n)
    rwa [hl] at this

theorem fixed_join {n v : Nat} (hv : v < 256 ^ n) (rest : Bytes) :
    ¬(little n v ++ rest).length < n ∧ leNat ((little n v ++ rest).take n) = v ∧ (little n v ++ rest).drop n = rest := by
  have hl : (little n v).length = n := by rw [little_eq, leBytes_length]
  refine ⟨by rw [List.length_append]; omega, ?_, ?_⟩
  · rw [List.take_left' hl, little_eq, leNat_leBytes, Nat.mod_eq_of_lt hv]
  · rw [List.drop_left' hl]

theorem next_iff (bs : Bytes) (it : Item) (rest : Bytes) : next bs = some (it, rest) ↔ Begins bs it rest := by
  constructor
  · intro h
    unfold next at h
    split at h
    · cases h
    · rename_i tag r hr
      obtain ⟨t, rfl, ht⟩ := (readVarint_of (by omega) _ _ _).mp hr
      have hv : ∀ k, tag % 8 = k → VarintOf 32 t (tag / 8 * 8 + k) := by
        intro k hk
        rw [show tag / 8 * 8 + k = tag by omega]; exact ht
      unfold body at h
      split at h
      · rename_i hk
        cases hr2 : readVarint 64 false r with
        | none => rw [hr2] at h; cases h
        | some p =>
          rw [hr2] at h
          cases h
          obtain ⟨p', rfl, hp⟩ := (readVarint_of (by omega) _ _ _).mp hr2
          rw [← List.append_assoc]
          exact .varint (hv 0 hk) hp
      · rename_i hk
        split at h
        · cases h
        · rename_i hl
          cases h
          have := fixed_split hl
          have h2 := Begins.fixed32 (rest := r.drop 4) (hv 5 hk) this.2
          rw [List.append_assoc, ← this.1] at h2
          exact h2
      · rename_i hk
        split at h
        · cases h
        · rename_i hl
          cases h
          have := fixed_split hl
          have h2 := Begins.fixed64 (rest := r.drop 8) (hv 1 hk) this.2
          rw [List.append_assoc, ← this.1] at h2
          exact h2
      · rename_i hk
        split at h
        · cases h
        · rename_i n r2 hr2
          obtain ⟨p', rfl, hp⟩ := (readVarint_of (by omega) _ _ _).mp hr2
          split at h
          · cases h
          · rename_i hn
            split at h
            · cases h
            · rename_i hl
              cases h
              have hlen : (r2.take n).length = n := by rw [List.length_take]; omega
              have h2 := Begins.len (rest := r2.drop n) (bs := r2.take n) (hv 2 hk) (by rw [hlen]; exact hp) (by rw [hlen]; omega)
              rw [List.append_assoc, List.append_assoc, List.take_append_drop] at h2
              exact h2
      · rename_i hk
        cases h
        exact .start (hv 3 hk)
      · rename_i hk
        cases h
        exact .stop (hv 4 hk)
      · cases h
  · intro h
    have tag : ∀ (t r : Bytes) (f k : Nat), k < 8 → VarintOf 32 t (f * 8 + k) → next (t ++ r) = body f k r := by
      intro t r f k hk ht
      unfold next
      rw [(readVarint_of (by omega) (t ++ r) r (f * 8 + k)).mpr ⟨t, rfl, ht⟩]
      dsimp only
      rw [show (f * 8 + k) / 8 = f by omega, show (f * 8 + k) % 8 = k by omega]
    cases h with
    | varint ht hp =>
      rw [List.append_assoc, tag _ _ _ 0 (by omega) ht]
      unfold body
      rw [(readVarint_of (by omega) _ _ _).mpr ⟨_, rfl, hp⟩]; rfl
    | fixed64 ht hv =>
      rw [List.append_assoc, tag _ _ _ 1 (by omega) ht]
      have := fixed_join (n := 8) hv rest
      unfold body
      simp only [if_neg this.1, this.2.1, this.2.2]
    | len ht hp hl =>
      rw [List.append_assoc, List.append_assoc, tag _ _ _ 2 (by omega) ht]
      unfold body
      rw [(readVarint_of (by omega) _ _ _).mpr ⟨_, rfl, hp⟩]
      show (if _ then _ else _) = _
      rw [if_neg (by omega), if_neg (by rw [List.length_append]; omega), List.take_left' rfl, List.drop_left' rfl]
    | start ht => rw [tag _ _ _ 3 (by omega) ht]; rfl
    | stop ht => rw [tag _ _ _ 4 (by omega) ht]; rfl
    | fixed32 ht hv =>
      rw [List.append_assoc, tag _ _ _ 5 (by omega) ht]
      have := fixed_join (n := 4) hv rest
      unfold body
      simp only [if_neg this.1, this.2.1, this.2.2]

theorem VarintOf.ne_nil {w : Nat} {p : Bytes} {v : Nat} (h : VarintOf w p v) : 0 < p.length := by
  cases p with
  | nil => exact absurd h.1 (by simp [IsVarint])
  | cons => simp

theorem Begins.length_lt {bs rest : Bytes} {it : Item} (h : Begins bs it rest) : rest.length < bs.length := by
  cases h with
  | varint ht _ => have := ht.ne_nil; simp only [List.length_append]; omega
  | fixed64 ht _ => have := ht.ne_nil; simp only [List.length_append]; omega
  | len ht _ _ => have := ht.ne_nil; simp only [List.length_append]; omega
  | start ht => have := ht.ne_nil; simp only [List.length_append]; omega
  | stop ht => have := ht.ne_nil; simp only [List.length_append]; omega
  | fixed32 ht _ => have := ht.ne_nil; simp only [List.length_append]; omega

theorem next_lt {bs rest : Bytes} {it : Item} (h : next bs = some (it, rest)) : rest.length < bs.length :=
  ((next_iff _ _ _).mp h).length_lt

/-- The result of reading a message, as a function. -/
def message {γ : Type} (ms : List (Meaning γ)) (bs : Bytes) (c : γ) : Bool × γ :=
  match _h : next bs with
  | none => (decide (bs.length = 0), c)
  | some (it, r) => if (Meaning.handle ms it c).1 then message ms r (Meaning.handle ms it c).2 else (false, (Meaning.handle ms it c).2)
termination_by bs.length
decreasing_by exact next_lt _h

theorem message_eq {γ : Type} (ms : List (Meaning γ)) (bs : Bytes) (c : γ) :
    message ms bs c = match next bs with
      | none => (decide (bs.length = 0), c)
      | some (it, r) => if (Meaning.handle ms it c).1 then message ms r (Meaning.handle ms it c).2 else (false, (Meaning.handle ms it c).2) := by
  rw [message]
  split <;> rename_i h <;> rw [h]

theorem message_spec {γ : Type} (ms : List (Meaning γ)) (bs : Bytes) (c : γ) : ReadResult ms bs c (message ms bs c) := by
  induction hl : bs.length using Nat.strongRecOn generalizing bs c with
  | _ l ih =>
    rw [message_eq]
    cases hn : next bs with
    | none =>
      refine ⟨[], bs, .nil, fun it r h => ?_, rfl, ?_⟩
      · rw [← next_iff, hn] at h; cases h
      · simp [Meaning.handleAll]
    | some p =>
      obtain ⟨it, r⟩ := p
      dsimp only
      obtain ⟨its, rest, h1, h2, h3, h4⟩ := ih r.length (by rw [← hl]; exact next_lt hn) r (Meaning.handle ms it c).2 rfl
      refine ⟨it :: its, rest, .cons ((next_iff _ _ _).mp hn) h1, h2, ?_, ?_⟩
      · unfold Meaning.handleAll
        split
        · exact h3
        · rfl
      · unfold Meaning.handleAll
        split
        · exact h4
        · simp

theorem Parses.unique {bs : Bytes} {its its' : List Item} {rest rest' : Bytes} (h : Parses bs its rest) (hm : ∀ it r, ¬Begins rest it r)
    (h' : Parses bs its' rest') (hm' : ∀ it r, ¬Begins rest' it r) : its = its' ∧ rest = rest' := by
  induction h generalizing its' with
  | nil =>
    cases h' with
    | nil => exact ⟨rfl, rfl⟩
    | cons h _ => exact absurd h (hm _ _)
  | cons hb hp ih =>
    cases h' with
    | nil => exact absurd hb (hm' _ _)
    | cons hb' hp' =>
      have e := ((next_iff _ _ _).mpr hb).symm.trans ((next_iff _ _ _).mpr hb')
      cases e
      obtain ⟨e1, e2⟩ := ih hm hp'
      exact ⟨by rw [e1], e2⟩

theorem readResult_iff {γ : Type} (ms : List (Meaning γ)) (bs : Bytes) (c : γ) (r : Bool × γ) : ReadResult ms bs c r ↔ r = message ms bs c := by
  constructor
  · rintro ⟨its, rest, h1, h2, h3, h4⟩
    obtain ⟨its', rest', h1', h2', h3', h4'⟩ := message_spec ms bs c
    obtain ⟨rfl, rfl⟩ := h1.unique h2 h1' h2'
    refine Prod.ext ?_ (h3.trans h3'.symm)
    rw [Bool.eq_iff_iff, h4, h4']
  · rintro rfl; exact message_spec ms bs c

/-! ## Handlers -/

section
variable {γ ι : Type}

/-- A handler has the given meaning, where `R` relates actions for length-delimited fields. -/
structure Refines (R : ι → StrAct γ → Prop) (h : Handler γ ι) (m : Meaning γ) : Prop where
  varint : ∀ f, h.varint.bind (· f) = m.varint f
  fixed32 : ∀ f, h.fixed32.bind (· f) = m.fixed32 f
  fixed64 : ∀ f, h.fixed64.bind (· f) = m.fixed64 f
  start : ∀ f, h.start.bind (· f) = m.start f
  stop : ∀ f, h.stop.bind (· f) = m.stop f
  len : ∀ f, (h.len.bind (· f) = none ∧ m.len f = none) ∨ ∃ a b, h.len.bind (· f) = some a ∧ m.len f = some b ∧ R a b

/-- Handlers in sequence have the given meanings. -/
inductive RefinesAll (R : ι → StrAct γ → Prop) : List (Handler γ ι) → List (Meaning γ) → Prop
  | nil : RefinesAll R [] []
  | cons {h : Handler γ ι} {m : Meaning γ} {hs : List (Handler γ ι)} {ms : List (Meaning γ)} : Refines R h m → RefinesAll R hs ms → RefinesAll R (h :: hs) (m :: ms)

variable {R : ι → StrAct γ → Prop} {hs : List (Handler γ ι)} {ms : List (Meaning γ)}

theorem accepted_eq {α : Type} {sel : Handler γ ι → Option (Nat → Option α)} {sel' : Meaning γ → Nat → Option α} (H : RefinesAll R hs ms)
    (he : ∀ h m, Refines R h m → ∀ f, (sel h).bind (· f) = sel' m f) (f : Nat) : accepted sel f hs = ms.findSome? (sel' · f) := by
  induction H with
  | nil => rfl
  | cons h _ ih =>
    rw [accepted, he _ _ h, List.findSome?_cons, ih]
    split <;> rename_i e <;> simp [e]

theorem findSome_map {α β δ : Type} (g : α → Option β) (k : β → δ) : ∀ (l : List α), l.findSome? (fun m => (g m).map k) = (l.findSome? g).map k
  | [] => rfl
  | a :: l => by
    rw [List.findSome?_cons, List.findSome?_cons, findSome_map g k l]
    cases g a <;> rfl

theorem act_eq {a : Option (γ → Bool × γ)} {it : Item} (h : ms.findSome? (·.action it) = a) (c : γ) : act a c = Meaning.handle ms it c := by
  unfold act Meaning.handle
  rw [h]
  cases a <;> rfl

theorem act_varint (H : RefinesAll R hs ms) (f v : Nat) (c : γ) : act ((accepted (·.varint) f hs).map (· v)) c = Meaning.handle ms (.varint f v) c := by
  rw [accepted_eq (sel' := Meaning.varint) H (fun _ _ h => h.varint)]
  exact act_eq (it := .varint f v) (findSome_map (Meaning.varint · f) (fun a => a v) ms) c

theorem act_fixed32 (H : RefinesAll R hs ms) (f v : Nat) (c : γ) : act ((accepted (·.fixed32) f hs).map (· v)) c = Meaning.handle ms (.fixed32 f v) c := by
  rw [accepted_eq (sel' := Meaning.fixed32) H (fun _ _ h => h.fixed32)]
  exact act_eq (it := .fixed32 f v) (findSome_map (Meaning.fixed32 · f) (fun a => a v) ms) c

theorem act_fixed64 (H : RefinesAll R hs ms) (f v : Nat) (c : γ) : act ((accepted (·.fixed64) f hs).map (· v)) c = Meaning.handle ms (.fixed64 f v) c := by
  rw [accepted_eq (sel' := Meaning.fixed64) H (fun _ _ h => h.fixed64)]
  exact act_eq (it := .fixed64 f v) (findSome_map (Meaning.fixed64 · f) (fun a => a v) ms) c

theorem act_start (H : RefinesAll R hs ms) (f : Nat) (c : γ) : act (accepted (·.start) f hs) c = Meaning.handle ms (.start f) c := by
  rw [accepted_eq (sel' := Meaning.start) H (fun _ _ h => h.start)]
  exact act_eq (it := .start f) rfl c

theorem act_stop (H : RefinesAll R hs ms) (f : Nat) (c : γ) : act (accepted (·.stop) f hs) c = Meaning.handle ms (.stop f) c := by
  rw [accepted_eq (sel' := Meaning.stop) H (fun _ _ h => h.stop)]
  exact act_eq (it := .stop f) rfl c

/-- A length-delimited field is either not accepted, or handled by the corresponding action. -/
theorem accepted_len (H : RefinesAll R hs ms) (f : Nat) :
    (accepted (·.len) f hs = none ∧ ∀ bs c, Meaning.handle ms (.len f bs) c = (true, c)) ∨
    ∃ a b, accepted (·.len) f hs = some a ∧ R a b ∧ ∀ bs c, Meaning.handle ms (.len f bs) c = b bs c := by
  have hm : ∀ bs c, Meaning.handle ms (.len f bs) c = act ((ms.findSome? (·.len f)).map (· bs)) c := fun bs c => by
    symm
    exact act_eq (it := .len f bs) (findSome_map (Meaning.len · f) (fun a => a bs) ms) c
  have : (accepted (·.len) f hs = none ∧ ms.findSome? (·.len f) = none) ∨
      ∃ a b, accepted (·.len) f hs = some a ∧ R a b ∧ ms.findSome? (·.len f) = some b := by
    clear hm
    induction H with
    | nil => exact .inl ⟨rfl, rfl⟩
    | cons h _ ih =>
      rw [accepted, List.findSome?_cons]
      rcases h.len f with ⟨h1, h2⟩ | ⟨a, b, h1, h2, h3⟩
      · rw [h1, h2]; exact ih
      · rw [h1, h2]; exact .inr ⟨a, b, rfl, h3, rfl⟩
  rcases this with ⟨h1, h2⟩ | ⟨a, b, h1, h2, h3⟩
  · exact .inl ⟨h1, fun bs c => by rw [hm, h2]; rfl⟩
  · exact .inr ⟨a, b, h1, h2, fun bs c => by rw [hm, h3]; rfl⟩

theorem accepted_none {α : Type} {sel : Handler γ ι → Option (Nat → Option α)} : ∀ {hs : List (Handler γ ι)}, supports sel hs = false → ∀ f, accepted sel f hs = none
  | [], _, _ => rfl
  | h :: hs, hn, f => by
    simp only [supports, List.any_cons, Bool.or_eq_false_iff] at hn
    rw [accepted]
    cases hh : sel h with
    | none => exact accepted_none hn.2 f
    | some g => rw [hh] at hn; exact absurd hn.1 (by simp)

/-- If no handler supports varints, then varints are skipped. -/
theorem handle_varint_none (H : RefinesAll R hs ms) (hn : supports (·.varint) hs = false) (f v : Nat) (c : γ) : Meaning.handle ms (.varint f v) c = (true, c) := by
  rw [← act_varint H, accepted_none hn]; rfl

theorem handle_fixed32_none (H : RefinesAll R hs ms) (hn : supports (·.fixed32) hs = false) (f v : Nat) (c : γ) : Meaning.handle ms (.fixed32 f v) c = (true, c) := by
  rw [← act_fixed32 H, accepted_none hn]; rfl

theorem handle_fixed64_none (H : RefinesAll R hs ms) (hn : supports (·.fixed64) hs = false) (f v : Nat) (c : γ) : Meaning.handle ms (.fixed64 f v) c = (true, c) := by
  rw [← act_fixed64 H, accepted_none hn]; rfl

end

theorem tag_split (tag : Nat) : tag >>> 3 = tag / 8 ∧ tag &&& 7 = tag % 8 :=
  ⟨Nat.shiftRight_eq_div_pow tag 3, Nat.and_two_pow_sub_one_eq_mod tag 3⟩

/-! ## String -/

section
variable {γ : Type}

/-- A string action does what the specification says. -/
def StrRefines (a : StrImpl γ) (b : StrAct γ) : Prop := ∀ bs c, a bs c = some (b bs c)

theorem copy_read (src : Bytes) : (copyVarint 64 false src = none ↔ readVarint 64 false src = none) ∧
    ∀ bs rest, copyVarint 64 false src = some (bs, rest) → ∃ v, readVarint 64 false src = some (v, rest) := by
  have := copyVarintLoop_eq (w := 64) false src 0 0
  exact ⟨this.1, fun bs rest h => (this.2 bs rest h).2⟩

theorem stringField_spec {hs : List (Handler γ (StrImpl γ))} {ms : List (Meaning γ)} (H : RefinesAll StrRefines hs ms) (f wt : Nat) (c : γ) (src : Bytes) :
    ∃ r s', stringField hs f wt c src = some (r, s') ∧
    match body f wt src with
    | none => r = (false, c)
    | some (it, rest) => r = Meaning.handle ms it c ∧ s' = rest := by
  unfold stringField
  split <;> try simp only [body_0, body_1, body_2, body_3, body_4, body_5]
  · split
    · cases hr : readVarint 64 false src with
      | none => exact ⟨_, _, rfl, rfl⟩
      | some p => exact ⟨_, _, rfl, act_varint H .., rfl⟩
    · rename_i hn
      have hn := (Bool.not_eq_true _).mp hn
      cases hr : copyVarint 64 false src with
      | none =>
        rw [(copy_read src).1.mp hr]
        exact ⟨_, _, rfl, rfl⟩
      | some p =>
        obtain ⟨v, hv⟩ := (copy_read src).2 _ _ hr
        rw [hv]
        exact ⟨_, _, rfl, (handle_varint_none H hn ..).symm, rfl⟩
  · split
    · exact ⟨_, _, rfl, rfl⟩
    · exact ⟨_, _, rfl, act_fixed32 H .., rfl⟩
  · split
    · exact ⟨_, _, rfl, rfl⟩
    · exact ⟨_, _, rfl, act_fixed64 H .., rfl⟩
  · cases hr : readVarint 32 false src with
    | none => exact ⟨_, _, rfl, rfl⟩
    | some p =>
      obtain ⟨n, src⟩ := p
      dsimp only
      by_cases h1 : 2 ^ 31 - 1 < n
      · rw [if_pos h1, if_pos h1]; exact ⟨_, _, rfl, rfl⟩
      · rw [if_neg h1, if_neg h1]
        by_cases h2 : src.length < n
        · rw [if_pos h2, if_pos h2]; exact ⟨_, _, rfl, rfl⟩
        · rw [if_neg h2, if_neg h2]
          rcases accepted_len H f with ⟨e1, e2⟩ | ⟨a, b, e1, e2, e3⟩
          · rw [e1]; exact ⟨_, _, rfl, (e2 ..).symm, rfl⟩
          · rw [e1]
            dsimp only
            rw [e2]
            exact ⟨_, _, rfl, (e3 ..).symm, rfl⟩
  · exact ⟨_, _, rfl, act_start H .., rfl⟩
  · exact ⟨_, _, rfl, act_stop H .., rfl⟩
  · rename_i h0 h5 h1 h2 h3 h4
    exact ⟨_, _, rfl, by rw [body_none h0 h5 h1 h2 h3 h4]⟩

theorem stringMessage_spec {hs : List (Handler γ (StrImpl γ))} {ms : List (Meaning γ)} (H : RefinesAll StrRefines hs ms) (c : γ) (src : Bytes) :
    stringMessage hs c src = some (message ms src c) := by
  induction hl : src.length using Nat.strongRecOn generalizing src c with
  | _ l ih =>
    rw [stringMessage, message_eq]
    cases hr : readVarint 32 false src with
    | none =>
      have hn : next src = none := by unfold next; rw [hr]
      rw [hn]
      dsimp only
      split
      · rw [decide_eq_false (by omega)]
      · rw [decide_eq_true (by omega)]
    | some p =>
      obtain ⟨tag, r⟩ := p
      have hn : next src = body (tag / 8) (tag % 8) r := by unfold next; rw [hr]
      dsimp only
      rw [(tag_split tag).1, (tag_split tag).2]
      obtain ⟨res, s', e1, e2⟩ := stringField_spec H (tag / 8) (tag % 8) c r
      rw [e1, hn]
      rw [← hn] at e2 ⊢
      cases hb : next src with
      | none =>
        rw [hb] at e2
        dsimp only at e2
        rw [e2]
        dsimp only
        rw [decide_eq_false]
        intro h0
        rw [List.length_eq_zero_iff] at h0
        rw [h0] at hr; cases hr
      | some q =>
        obtain ⟨it, rest⟩ := q
        rw [hb] at e2
        dsimp only at e2 ⊢
        obtain ⟨e2, rfl⟩ := e2
        rw [← e2]
        obtain ⟨ok, c'⟩ := res
        cases ok with
        | false => rfl
        | true => exact ih _ (by rw [← hl]; exact next_lt hb) c' s' rfl

end

/-! ## `Reader` -/

theorem reader_read {w : Nat} (hw : 14 < w) (s : Rd) (hwf : s.Wf) (hok : s.ok = true) :
    ReaderPost w s (readVarint w false s.rest) (fromReader w false (readUpd w) 0 s) := by
  have := fromReader_spec (canonical := false) (upd := readUpd w) hw 0 s hwf hok
  rwa [scan_read s.rest 0 0 (by unfold kMaxLengthVarint; omega)] at this

theorem reader_skip (s : Rd) (hwf : s.Wf) (hok : s.ok = true) :
    ReaderPost 64 s ((readVarint 64 false s.rest).map (fun p => ((), p.2))) (fromReader 64 false skipUpd () s) := by
  have := fromReader_spec (canonical := false) (upd := skipUpd) (w := 64) (by omega) () s hwf hok
  rw [scan_skip s.rest 0 () (by decide)] at this
  have hc := copy_read s.rest
  have he : (copyVarintLoop 64 false 0 s.rest).map (fun p => ((), p.2)) = (readVarint 64 false s.rest).map (fun p => ((), p.2)) := by
    show (copyVarint 64 false s.rest).map _ = _
    cases h : copyVarint 64 false s.rest with
    | none => rw [hc.1.mp h]; rfl
    | some p =>
      obtain ⟨v, hv⟩ := hc.2 _ _ h
      rw [hv]; rfl
  rwa [he] at this

/-- The source is not failed, or it failed at the current position, and there is nothing in the buffer. -/
def Alive (s : Rd) : Prop := s.ok = true ∨ (s.ok = false ∧ s.rest = [] ∧ s.fails = true)

/-- The same source, moved to `rest`. -/
def Moved (s s' : Rd) (rest : Bytes) : Prop := s'.rest = rest ∧ Alive s' ∧ s'.Wf ∧ s'.fails = s.fails

theorem buffer_take {s s' : Rd} {n : Nat} (hr : s'.rest = s.rest) (hn : n ≤ s'.avail) : s'.buffer.take n = s.rest.take n := by
  unfold Rd.buffer
  rw [List.take_take, Nat.min_eq_left hn, hr]

theorem readBytes_spec (n : Nat) (s : Rd) (hwf : s.Wf) (hok : s.ok = true) :
    (n ≤ s.rest.length ∧ ∃ s', readBytes n s = (some (s.rest.take n), s') ∧ Moved s s' (s.rest.drop n)) ∨
    (s.rest.length < n ∧ ∃ s', readBytes n s = (none, s')) := by
  unfold readBytes
  rcases Rd.pull_cases (n := n) hwf hok with ⟨hn, s', hp, hr, hf, hok', hwf', ha, -⟩ | ⟨hn, s', hp, hr, hf, hok', hwf', ha⟩
  · refine .inl ⟨hn, s'.advance n, ?_, by rw [Rd.advance_rest, hr], .inl hok', Rd.wf_advance hwf', hf⟩
    simp only [hp, if_neg (show ¬(true = false) by decide), buffer_take hr ha]
  · refine .inr ⟨hn, s', ?_⟩
    simp only [hp, if_true]

theorem readFixed_spec (n : Nat) (s : Rd) (hwf : s.Wf) (hok : s.ok = true) :
    (n ≤ s.rest.length ∧ ∃ s', readFixed n s = (some (leNat (s.rest.take n)), s') ∧ Moved s s' (s.rest.drop n)) ∨
    (s.rest.length < n ∧ ∃ s', readFixed n s = (none, s')) := by
  have : readFixed n s = ((readBytes n s).1.map leNat, (readBytes n s).2) := by
    unfold readFixed readBytes
    dsimp only
    split <;> rfl
  rw [this]
  rcases readBytes_spec n s hwf hok with ⟨h, s', e, m⟩ | ⟨h, s', e⟩
  · exact .inl ⟨h, s', by rw [e]; rfl, m⟩
  · exact .inr ⟨h, s', by rw [e]; rfl⟩

theorem skip_spec (n : Nat) (s : Rd) (hwf : s.Wf) (hok : s.ok = true) :
    (n ≤ s.rest.length ∧ ∃ s', skip n s = (true, s') ∧ Moved s s' (s.rest.drop n)) ∨
    (s.rest.length < n ∧ ∃ s', skip n s = (false, s')) := by
  unfold skip
  have hw : s.avail ≤ s.rest.length := hwf
  split
  · exact .inl ⟨by omega, _, rfl, rfl, .inl hok, Rd.wf_advance hwf, rfl⟩
  · rw [if_neg (by rw [hok]; decide)]
    split
    · rename_i h
      refine .inl ⟨h, _, rfl, rfl, .inl hok, ?_, rfl⟩
      show min _ _ ≤ (s.rest.drop n).length
      rw [List.length_drop]; omega
    · exact .inr ⟨by omega, _, rfl⟩

section
variable {γ : Type}

/-- An action for a length-delimited field of a `Reader` does what the specification says, if the source has enough data, and reads to the end of the field or fails; it
fails if the source ends too early. -/
def RdRefines (a : RdAct γ) (b : StrAct γ) : Prop :=
  ∀ n c (s : Src), s.rd.Wf → s.rd.ok = true → ∃ r s', a n c s = some (r, s') ∧
    (n ≤ s.rd.rest.length → r = b (s.rd.rest.take n) c ∧ (r.1 = true → Moved s.rd s'.rd (s.rd.rest.drop n) ∧ s'.extra = s.extra)) ∧
    (s.rd.rest.length < n → r.1 = false)

theorem readerField_spec {hs : List (Handler γ (RdAct γ))} {ms : List (Meaning γ)} (H : RefinesAll RdRefines hs ms) (f wt : Nat) (c : γ) (s : Src)
    (hwf : s.rd.Wf) (hok : s.rd.ok = true) :
    ∃ r s', readerField hs f wt c s = some (r, s') ∧
    match body f wt s.rd.rest with
    | none => r.1 = false ∧ (s.extra = some 0 ∨ supports (·.len) hs = false → r.2 = c)
    | some (it, rest) => r = Meaning.handle ms it c ∧ (r.1 = true → Moved s.rd s'.rd rest ∧ s'.extra = s.extra) := by
  obtain ⟨rd, extra⟩ := s
  dsimp only at hwf hok ⊢
  unfold readerField
  split <;> try simp only [body_0, body_1, body_2, body_3, body_4, body_5]
  · split
    · have h := reader_read (w := 64) (by omega) rd hwf hok
      generalize fromReader 64 false (readUpd 64) 0 rd = R at h ⊢
      obtain ⟨R, rd'⟩ := R
      cases hr : readVarint 64 false rd.rest with
      | none =>
        rw [hr] at h
        obtain ⟨h1, h2, h3, h4, h5, h6, h7⟩ := h
        cases h3
        exact ⟨_, _, rfl, rfl, fun _ => rfl⟩
      | some p =>
        rw [hr] at h
        obtain ⟨h1, h2, h3, h4, h5⟩ := h
        cases h3
        exact ⟨_, _, rfl, act_varint H .., fun _ => ⟨⟨h4, .inl h5, h1, h2⟩, rfl⟩⟩
    · rename_i hn
      have hn := (Bool.not_eq_true _).mp hn
      have h := reader_skip rd hwf hok
      generalize fromReader 64 false skipUpd () rd = R at h ⊢
      obtain ⟨R, rd'⟩ := R
      cases hr : readVarint 64 false rd.rest with
      | none =>
        rw [hr] at h
        obtain ⟨h1, h2, h3, h4, h5, h6, h7⟩ := h
        cases h3
        exact ⟨_, _, rfl, rfl, fun _ => rfl⟩
      | some p =>
        rw [hr] at h
        obtain ⟨h1, h2, h3, h4, h5⟩ := h
        cases h3
        exact ⟨_, _, rfl, (handle_varint_none H hn ..).symm, fun _ => ⟨⟨h4, .inl h5, h1, h2⟩, rfl⟩⟩
  · rcases readFixed_spec 4 rd hwf hok with ⟨h, s', e, m⟩ | ⟨h, s', e⟩
    · rw [e, if_neg (by omega)]
      exact ⟨_, _, rfl, act_fixed32 H .., fun _ => ⟨m, rfl⟩⟩
    · rw [e, if_pos h]
      exact ⟨_, _, rfl, rfl, fun _ => rfl⟩
  · rcases readFixed_spec 8 rd hwf hok with ⟨h, s', e, m⟩ | ⟨h, s', e⟩
    · rw [e, if_neg (by omega)]
      exact ⟨_, _, rfl, act_fixed64 H .., fun _ => ⟨m, rfl⟩⟩
    · rw [e, if_pos h]
      exact ⟨_, _, rfl, rfl, fun _ => rfl⟩
  · have h := reader_read (w := 32) (by omega) rd hwf hok
    generalize fromReader 32 false (readUpd 32) 0 rd = R at h ⊢
    obtain ⟨R, rd'⟩ := R
    cases hr : readVarint 32 false rd.rest with
    | none =>
      rw [hr] at h
      obtain ⟨h1, h2, h3, h4, h5, h6, h7⟩ := h
      cases h3
      exact ⟨_, _, rfl, rfl, fun _ => rfl⟩
    | some p =>
      obtain ⟨n, rest⟩ := p
      rw [hr] at h
      obtain ⟨h1, h2, h3, h4, h5⟩ := h
      cases h3
      dsimp only at h1 h2 h4 h5
      subst h4
      dsimp only
      by_cases hn : 2 ^ 31 - 1 < n
      · rw [if_pos hn, if_pos hn]
        exact ⟨_, _, rfl, rfl, fun _ => rfl⟩
      · rw [if_neg hn, if_neg hn]
        by_cases ht : supports (·.len) hs = true ∧ (⟨rd', extra⟩ : Src).tooLong n = true
        · rw [if_pos ht]
          have hl : rd'.rest.length < n := by
            have h2 := ht.2
            unfold Src.tooLong at h2
            cases extra with
            | none => exact absurd h2 (by simp)
            | some e => dsimp only at h2; have := of_decide_eq_true h2; omega
          rw [if_pos hl]
          exact ⟨_, _, rfl, rfl, fun _ => rfl⟩
        · rw [if_neg ht]
          rcases accepted_len H f with ⟨e1, e2⟩ | ⟨a, b, e1, e2, e3⟩
          · rw [e1]
            dsimp only
            rcases skip_spec n rd' h1 h5 with ⟨h, s', e, m⟩ | ⟨h, s', e⟩
            · rw [e, if_neg (by omega)]
              exact ⟨_, _, rfl, (e2 ..).symm, fun _ => ⟨⟨m.1, m.2.1, m.2.2.1, m.2.2.2.trans h2⟩, rfl⟩⟩
            · rw [e, if_pos h]
              exact ⟨_, _, rfl, rfl, fun _ => rfl⟩
          · rw [e1]
            dsimp only
            obtain ⟨r, s', g1, g2, g3⟩ := e2 n c ⟨rd', extra⟩ h1 h5
            refine ⟨r, s', g1, ?_⟩
            by_cases hl : rd'.rest.length < n
            · rw [if_pos hl]
              refine ⟨g3 hl, fun h => ?_⟩
              rcases h with h | h
              · refine absurd ⟨?_, ?_⟩ ht
                · cases hsup : supports (·.len) hs with
                  | true => rfl
                  | false => rw [accepted_none hsup] at e1; cases e1
                · rw [h]
                  exact decide_eq_true (by dsimp only; omega)
              · rw [accepted_none h] at e1; cases e1
            · rw [if_neg hl]
              obtain ⟨k1, k2⟩ := g2 (by dsimp only; omega)
              refine ⟨k1.trans (e3 ..).symm, fun h => ?_⟩
              obtain ⟨m, k3⟩ := k2 h
              exact ⟨⟨m.1, m.2.1, m.2.2.1, m.2.2.2.trans h2⟩, k3⟩
  · exact ⟨_, _, rfl, act_start H .., fun _ => ⟨⟨rfl, .inl hok, hwf, rfl⟩, rfl⟩⟩
  · exact ⟨_, _, rfl, act_stop H .., fun _ => ⟨⟨rfl, .inl hok, hwf, rfl⟩, rfl⟩⟩
  · rename_i h0 h5 h1 h2 h3 h4
    exact ⟨_, _, rfl, by rw [body_none h0 h5 h1 h2 h3 h4]; exact ⟨rfl, fun _ => rfl⟩⟩

/-- `ReadMessageFromReader()`. -/
theorem readerMessage_spec {hs : List (Handler γ (RdAct γ))} {ms : List (Meaning γ)} (H : RefinesAll RdRefines hs ms) (c : γ) (s : Src)
    (hwf : s.rd.Wf) (hal : Alive s.rd) :
    ∃ r s', readerMessage hs c s = some (r, s') ∧ r.1 = (message ms s.rd.rest c).1 ∧
      (r.1 = true → r = message ms s.rd.rest c ∧ s'.rd.rest = [] ∧ s'.rd.ok = (!s.rd.fails) ∧ s'.rd.Wf ∧ s'.rd.fails = s.rd.fails ∧ s'.extra = s.extra) ∧
      (s.extra = some 0 ∨ supports (·.len) hs = false → r = message ms s.rd.rest c) := by
  induction hl : s.rd.rest.length using Nat.strongRecOn generalizing s c with
  | _ l ih =>
    obtain ⟨rd, extra⟩ := s
    dsimp only at hwf hal hl ⊢
    rcases hal with hok | ⟨d1, d2, d3⟩
    rotate_left
    · have ha : rd.avail = 0 := by
        have : rd.avail ≤ rd.rest.length := hwf
        rw [d2] at this; simpa using this
      have hp : rd.pull 1 = (false, rd) := by
        unfold Rd.pull
        rw [if_neg (by omega), if_pos d1]
      have hf : fromReader 32 false (readUpd 32) 0 rd = (.fail, rd) := by
        unfold fromReader
        simp only [hp, if_true]
      rw [readerMessage, hf]
      dsimp only
      rw [if_neg (by omega), d2]
      have hm : message ms [] c = (true, c) := by rw [message_eq]; rfl
      exact ⟨_, _, rfl, by rw [hm], fun _ => ⟨hm.symm, d2, by rw [d1, d3]; rfl, hwf, rfl, rfl⟩, fun _ => hm.symm⟩
    rw [readerMessage, message_eq]
    have h := reader_read (w := 32) (by omega) rd hwf hok
    dsimp only
    generalize fromReader 32 false (readUpd 32) 0 rd = R at h ⊢
    obtain ⟨R, rd'⟩ := R
    cases hr : readVarint 32 false rd.rest with
    | none =>
      have hn : next rd.rest = none := by unfold next; rw [hr]
      rw [hn]
      rw [hr] at h
      obtain ⟨h1, h2, h3, h4, h5, h6, h7⟩ := h
      cases h3
      dsimp only at h1 h2 h4 h5 h6 h7 ⊢
      by_cases h0 : rd.rest = []
      · have hinc : Incomplete 32 rd.rest := ⟨by rw [h0]; decide, by rw [h0]; simp⟩
        obtain ⟨i1, i2⟩ := h6 hinc
        rw [if_neg (by rw [i2, h0]; simp), decide_eq_true (by rw [h0]; rfl)]
        exact ⟨_, _, rfl, rfl, fun _ => ⟨rfl, h4.trans h0, i1, h1, h2, rfl⟩, fun _ => rfl⟩
      · rw [if_pos (h7 h0), decide_eq_false (fun h => h0 (List.length_eq_zero_iff.mp h))]
        exact ⟨_, _, rfl, rfl, fun h => (Bool.false_ne_true h).elim, fun _ => rfl⟩
    | some p =>
      obtain ⟨tag, r⟩ := p
      have hn : next rd.rest = body (tag / 8) (tag % 8) r := by unfold next; rw [hr]
      have hne : rd.rest.length ≠ 0 := fun h => by
        rw [List.length_eq_zero_iff.mp h] at hr; cases hr
      rw [hr] at h
      obtain ⟨h1, h2, h3, h4, h5⟩ := h
      cases h3
      dsimp only at h1 h2 h4 h5 ⊢
      rw [(tag_split tag).1, (tag_split tag).2]
      obtain ⟨res, s', e1, e2⟩ := readerField_spec H (tag / 8) (tag % 8) c ⟨rd', extra⟩ h1 h5
      rw [e1]
      dsimp only at e2
      rw [h4, ← hn] at e2
      cases hb : next rd.rest with
      | none =>
        rw [hb] at e2
        dsimp only at e2 ⊢
        obtain ⟨ok, c'⟩ := res
        obtain ⟨e2, e3⟩ := e2
        dsimp only at e2 e3
        subst e2
        rw [decide_eq_false hne]
        refine ⟨_, _, rfl, rfl, fun h => (Bool.false_ne_true h).elim, fun h => by rw [e3 h]⟩
      | some q =>
        obtain ⟨it, rest⟩ := q
        rw [hb] at e2
        dsimp only at e2 ⊢
        obtain ⟨e2, e3⟩ := e2
        rw [← e2]
        obtain ⟨ok, c'⟩ := res
        cases ok with
        | false => exact ⟨_, _, rfl, rfl, fun h => (Bool.false_ne_true h).elim, fun _ => rfl⟩
        | true =>
          obtain ⟨⟨m1, m2, m3, m4⟩, m5⟩ := e3 rfl
          obtain ⟨r', s'', g1, g2, g3, g4⟩ := ih _ (by rw [← hl, m1]; exact next_lt hb) c' s' m3 m2 rfl
          rw [m1, m4, m5] at *
          exact ⟨r', s'', g1, g2, fun h => by rw [← h2]; exact g3 h, g4⟩

/-! ## Handlers of packed repeated fields -/

/-- The result of reading packed varints, as a function. -/
def packedVarints (a : NumAct γ) (bs : Bytes) (c : γ) : Bool × γ :=
  match _h : readVarint 64 false bs with
  | none => (decide (bs.length = 0), c)
  | some (v, r) => if (a v c).1 then packedVarints a r (a v c).2 else (false, (a v c).2)
termination_by bs.length
decreasing_by exact readVarint_length (by omega) _h

theorem packedVarints_eq (a : NumAct γ) (bs : Bytes) (c : γ) :
    packedVarints a bs c = match readVarint 64 false bs with
      | none => (decide (bs.length = 0), c)
      | some (v, r) => if (a v c).1 then packedVarints a r (a v c).2 else (false, (a v c).2) := by
  rw [packedVarints]
  split <;> rename_i h <;> rw [h]

theorem packedVarints_spec (a : NumAct γ) (bs : Bytes) (c : γ) : PackedVarintResult a bs c (packedVarints a bs c) := by
  induction hl : bs.length using Nat.strongRecOn generalizing bs c with
  | _ l ih =>
    rw [packedVarints_eq]
    cases hn : readVarint 64 false bs with
    | none =>
      refine ⟨[], bs, .nil, fun p r v e h => ?_, rfl, ?_⟩
      · rw [(readVarint_of (by omega) bs r v).mpr ⟨p, e, h⟩] at hn; cases hn
      · simp [feed]
    | some q =>
      obtain ⟨v, r⟩ := q
      dsimp only
      obtain ⟨vs, rest, h1, h2, h3, h4⟩ := ih r.length (by rw [← hl]; exact readVarint_length (by omega) hn) r (a v c).2 rfl
      obtain ⟨p, rfl, hp⟩ := (readVarint_of (by omega) _ _ _).mp hn
      refine ⟨v :: vs, rest, .cons hp h1, h2, ?_, ?_⟩
      · unfold feed
        split
        · exact h3
        · rfl
      · unfold feed
        split
        · exact h4
        · simp

theorem packedVarintString_spec (a : NumAct γ) (bs : Bytes) (c : γ) : packedVarintString a bs c = some (packedVarints a bs c) := by
  induction hl : bs.length using Nat.strongRecOn generalizing bs c with
  | _ l ih =>
    rw [packedVarintString, packedVarints_eq]
    cases hn : readVarint 64 false bs with
    | none => rfl
    | some q =>
      obtain ⟨v, r⟩ := q
      dsimp only
      have := ih r.length (by rw [← hl]; exact readVarint_length (by omega) hn) r (a v c).2 rfl
      generalize a v c = x at *
      obtain ⟨ok, c'⟩ := x
      cases ok with
      | false => rfl
      | true => exact this

theorem packedVarintReaderLoop_spec (a : NumAct γ) (c : γ) (s : Src) (hwf : s.rd.Wf) (hok : s.rd.ok = true) :
    ∃ r s', packedVarintReaderLoop a c s = some (r, s') ∧
      (s.extra = some 0 → r = packedVarints a s.rd.rest c ∧ (r.1 = true → s'.rd.rest = [] ∧ s'.rd.ok = (!s.rd.fails) ∧ s'.rd.Wf)) ∧
      (s.extra ≠ some 0 → r.1 = false) := by
  induction hl : s.rd.rest.length using Nat.strongRecOn generalizing s c with
  | _ l ih =>
    obtain ⟨rd, extra⟩ := s
    dsimp only at hwf hok hl ⊢
    rw [packedVarintReaderLoop, packedVarints_eq]
    have h := reader_read (w := 64) (by omega) rd hwf hok
    dsimp only
    generalize fromReader 64 false (readUpd 64) 0 rd = R at h ⊢
    obtain ⟨R, rd'⟩ := R
    cases hr : readVarint 64 false rd.rest with
    | none =>
      rw [hr] at h
      obtain ⟨h1, h2, h3, h4, h5, h6, h7⟩ := h
      cases h3
      dsimp only at h1 h2 h4 h5 h6 h7 ⊢
      refine ⟨_, _, rfl, fun he => ⟨?_, fun ht => ?_⟩, fun he => ?_⟩
      · rw [he, h4]; simp
      · have h0 := (of_decide_eq_true ht).1
        rw [h4, List.length_eq_zero_iff] at h0
        exact ⟨h4.trans h0, (h6 ⟨by rw [h0]; decide, by rw [h0]; simp⟩).1, h1⟩
      · exact decide_eq_false (fun h => he h.2)
    | some q =>
      obtain ⟨v, r⟩ := q
      rw [hr] at h
      obtain ⟨h1, h2, h3, h4, h5⟩ := h
      cases h3
      dsimp only at h1 h2 h4 h5 ⊢
      have := ih rd'.rest.length (by rw [← hl, h4]; exact readVarint_length (by omega) hr) (a v c).2 ⟨rd', extra⟩ h1 h5 rfl
      generalize a v c = x at *
      obtain ⟨ok, c'⟩ := x
      cases ok with
      | false => exact ⟨_, _, rfl, fun _ => ⟨rfl, fun h => (Bool.false_ne_true h).elim⟩, fun _ => rfl⟩
      | true =>
        dsimp only at this ⊢
        rw [h4, h2] at this
        exact this

theorem limit_le {s : Src} {n : Nat} (h : n ≤ s.rd.rest.length) (hwf : s.rd.Wf) :
    (s.limit n).rd.rest = s.rd.rest.take n ∧ (s.limit n).rd.ok = s.rd.ok ∧ (s.limit n).rd.Wf ∧ (s.limit n).rd.fails = false ∧ (s.limit n).extra = some 0 := by
  unfold Src.limit
  rw [if_pos h]
  refine ⟨rfl, rfl, ?_, rfl, rfl⟩
  have : s.rd.avail ≤ s.rd.rest.length := hwf
  show min _ _ ≤ (s.rd.rest.take n).length
  rw [List.length_take]; omega

theorem limit_gt {s : Src} {n : Nat} (h : s.rd.rest.length < n) (hwf : s.rd.Wf) :
    (s.limit n).rd.rest = s.rd.rest ∧ (s.limit n).rd.ok = s.rd.ok ∧ (s.limit n).rd.Wf ∧ (s.limit n).rd.fails = true ∧ (s.limit n).extra ≠ some 0 := by
  unfold Src.limit
  rw [if_neg (by omega)]
  refine ⟨rfl, rfl, hwf, rfl, ?_⟩
  intro e
  have := Option.some.inj e
  omega

theorem unlimit_le {s s' : Src} {n : Nat} (h : n ≤ s.rd.rest.length) (h' : s'.rd.rest = []) (hok : s'.rd.ok = true) (hwf : s'.rd.Wf) :
    Moved s.rd (s.unlimit n s').rd (s.rd.rest.drop n) ∧ (s.unlimit n s').extra = s.extra := by
  unfold Src.unlimit
  rw [if_pos h]
  refine ⟨⟨by show s'.rd.rest ++ _ = _; rw [h']; rfl, .inl hok, ?_, rfl⟩, rfl⟩
  have : s'.rd.avail ≤ s'.rd.rest.length := hwf
  show s'.rd.avail ≤ (s'.rd.rest ++ _).length
  rw [List.length_append]; omega

/-- `Pull(1, length)`. -/
theorem pull_one (rd : Rd) (hwf : rd.Wf) (hok : rd.ok = true) :
    ∃ b rd', rd.pull 1 = (b, rd') ∧ rd'.rest = rd.rest ∧ rd'.fails = rd.fails ∧ rd'.Wf ∧
      (b = true → rd'.ok = true) ∧ (b = false → rd.rest = [] ∧ rd'.avail = 0 ∧ rd'.ok = !rd.fails) := by
  rcases Rd.pull_cases (n := 1) hwf hok with ⟨hn, s', hp, hr, hf, hok', hwf', ha, -⟩ | ⟨hn, s', hp, hr, hf, hok', hwf', ha⟩
  · exact ⟨true, s', hp, hr, hf, hwf', fun _ => hok', fun h => (Bool.false_ne_true h.symm).elim⟩
  · have : rd.rest = [] := List.length_eq_zero_iff.mp (by omega)
    exact ⟨false, s', hp, hr, hf, hwf', fun h => (Bool.false_ne_true h).elim, fun _ => ⟨this, by rw [ha, this]; rfl, hok'⟩⟩

theorem packedVarintReaderLoop_dead (a : NumAct γ) (c : γ) (rd : Rd) (extra : Option Nat) (hok : rd.ok = false) (hr : rd.rest = []) (hwf : rd.Wf) :
    packedVarintReaderLoop a c ⟨rd, extra⟩ = some ((decide (extra = some 0), c), ⟨rd, extra⟩) := by
  have ha : rd.avail = 0 := by
    have : rd.avail ≤ rd.rest.length := hwf
    rw [hr] at this; simpa using this
  have hp : rd.pull 1 = (false, rd) := by
    unfold Rd.pull
    rw [if_neg (by omega), if_pos hok]
  have hf : fromReader 64 false (readUpd 64) 0 rd = (.fail, rd) := by
    unfold fromReader
    simp only [hp, if_true]
  rw [packedVarintReaderLoop, hf]
  simp [hr]

theorem packedVarintReader_spec (a : NumAct γ) : RdRefines (packedVarintReader a) (packedVarints a) := by
  rintro n c ⟨rd, extra⟩ hwf hok
  dsimp only at hwf hok ⊢
  obtain ⟨b, rd', p1, p2, p3, p4, p5, p6⟩ := pull_one rd hwf hok
  unfold packedVarintReader
  dsimp only
  rw [p1]
  dsimp only
  by_cases hfast : b = true ∧ n ≤ rd'.avail
  · rw [if_pos hfast, packedVarintString_spec, buffer_take p2 hfast.2]
    have : rd'.avail ≤ rd'.rest.length := p4
    rw [p2] at this
    refine ⟨_, _, rfl, fun _ => ⟨rfl, fun _ => ⟨⟨by rw [Rd.advance_rest, p2], .inl (p5 hfast.1), Rd.wf_advance p4, p3⟩, rfl⟩⟩, fun h => ?_⟩
    have := hfast.2; omega
  · rw [if_neg hfast]
    cases b with
    | true =>
      by_cases hl : n ≤ rd.rest.length
      · obtain ⟨l1, l2, l3, l4, l5⟩ := limit_le (s := ⟨rd', extra⟩) (n := n) (by dsimp only; rw [p2]; exact hl) p4
        obtain ⟨r, s', e1, e2, -⟩ := packedVarintReaderLoop_spec a c _ l3 (l2.trans (p5 rfl))
        rw [e1]
        obtain ⟨k1, k2⟩ := e2 l5
        dsimp only at l1
        rw [l1, p2] at k1
        refine ⟨_, _, rfl, fun _ => ⟨k1, fun ht => ?_⟩, fun h => by omega⟩
        obtain ⟨m1, m2, m3⟩ := k2 ht
        rw [l4] at m2
        have := unlimit_le (s := ⟨rd', extra⟩) (n := n) (by dsimp only; rw [p2]; exact hl) m1 m2 m3
        dsimp only at this
        rw [p2] at this
        exact ⟨⟨this.1.1, this.1.2.1, this.1.2.2.1, this.1.2.2.2.trans p3⟩, this.2⟩
      · obtain ⟨l1, l2, l3, l4, l5⟩ := limit_gt (s := ⟨rd', extra⟩) (n := n) (by dsimp only; rw [p2]; omega) p4
        obtain ⟨r, s', e1, -, e2⟩ := packedVarintReaderLoop_spec a c _ l3 (l2.trans (p5 rfl))
        rw [e1]
        exact ⟨_, _, rfl, fun h => absurd h hl, fun _ => e2 l5⟩
    | false =>
      obtain ⟨q1, q2, q3⟩ := p6 rfl
      cases hf : rd.fails with
      | false =>
        rw [hf] at q3
        by_cases hl : n ≤ rd.rest.length
        · obtain ⟨l1, l2, l3, l4, l5⟩ := limit_le (s := ⟨rd', extra⟩) (n := n) (by dsimp only; rw [p2]; exact hl) p4
          obtain ⟨r, s', e1, e2, -⟩ := packedVarintReaderLoop_spec a c _ l3 (l2.trans q3)
          rw [e1]
          obtain ⟨k1, k2⟩ := e2 l5
          dsimp only at l1
          rw [l1, p2] at k1
          refine ⟨_, _, rfl, fun _ => ⟨k1, fun ht => ?_⟩, fun h => by omega⟩
          obtain ⟨m1, m2, m3⟩ := k2 ht
          rw [l4] at m2
          have := unlimit_le (s := ⟨rd', extra⟩) (n := n) (by dsimp only; rw [p2]; exact hl) m1 m2 m3
          dsimp only at this
          rw [p2] at this
          exact ⟨⟨this.1.1, this.1.2.1, this.1.2.2.1, this.1.2.2.2.trans p3⟩, this.2⟩
        · obtain ⟨l1, l2, l3, l4, l5⟩ := limit_gt (s := ⟨rd', extra⟩) (n := n) (by dsimp only; rw [p2]; omega) p4
          obtain ⟨r, s', e1, -, e2⟩ := packedVarintReaderLoop_spec a c _ l3 (l2.trans q3)
          rw [e1]
          exact ⟨_, _, rfl, fun h => absurd h hl, fun _ => e2 l5⟩
      | true =>
        rw [hf] at q3
        have hr' : rd'.rest = [] := p2.trans q1
        rcases Nat.eq_zero_or_pos n with rfl | hn
        · obtain ⟨l1, l2, l3, l4, l5⟩ := limit_le (s := ⟨rd', extra⟩) (n := 0) (Nat.zero_le _) p4
          rw [show (⟨rd', extra⟩ : Src).limit 0 = ⟨((⟨rd', extra⟩ : Src).limit 0).rd, ((⟨rd', extra⟩ : Src).limit 0).extra⟩ from rfl,
            packedVarintReaderLoop_dead a c _ _ (l2.trans q3) l1 l3, l5]
          refine ⟨_, _, rfl, fun _ => ⟨?_, fun _ => ?_⟩, fun h => by omega⟩
          · rw [List.take_zero, packedVarints_eq]; rfl
          · unfold Src.unlimit Src.limit
            rw [if_pos (Nat.zero_le _), if_pos (Nat.zero_le _)]
            dsimp only
            refine ⟨⟨by rw [hr', q1]; rfl, .inr ⟨q3, by rw [hr']; rfl, p3.trans hf⟩, ?_, p3⟩, rfl⟩
            show min rd'.avail 0 ≤ _
            omega
        · obtain ⟨l1, l2, l3, l4, l5⟩ := limit_gt (s := ⟨rd', extra⟩) (n := n) (by dsimp only; rw [hr']; exact hn) p4
          rw [show (⟨rd', extra⟩ : Src).limit n = ⟨((⟨rd', extra⟩ : Src).limit n).rd, ((⟨rd', extra⟩ : Src).limit n).extra⟩ from rfl,
            packedVarintReaderLoop_dead a c _ _ (l2.trans q3) (l1.trans hr') l3]
          refine ⟨_, _, rfl, fun h => ?_, fun _ => decide_eq_false l5⟩
          rw [q1] at h; simp at h; omega

/-- The elements of a packed repeated field with a fixed size. -/
def fixeds (size : Nat) : Nat → Bytes → List Nat
  | 0, _ => []
  | k + 1, bs => leNat (bs.take size) :: fixeds size k (bs.drop size)

theorem fixeds_spec (size : Nat) : ∀ (k : Nat) (bs : Bytes), bs.length = k * size →
    bs = (fixeds size k bs).flatMap (little size) ∧ ∀ v ∈ fixeds size k bs, v < 256 ^ size
  | 0, bs, h => by
    have : bs = [] := List.length_eq_zero_iff.mp (by simpa using h)
    subst this
    exact ⟨rfl, fun v hv => by cases hv⟩
  | k + 1, bs, h => by
    rw [Nat.succ_mul] at h
    obtain ⟨h1, h2⟩ := fixed_split (n := size) (r := bs) (by omega)
    obtain ⟨h3, h4⟩ := fixeds_spec size k (bs.drop size) (by rw [List.length_drop]; omega)
    constructor
    · rw [fixeds, List.flatMap_cons, ← h3]; exact h1
    · intro v hv
      rw [fixeds] at hv
      rcases List.mem_cons.mp hv with rfl | hv
      · exact h2
      · exact h4 v hv

/-- The result of reading packed numbers of a fixed size, as a function. -/
def packedFixeds (size : Nat) (a : NumAct γ) (bs : Bytes) (c : γ) : Bool × γ :=
  if 0 < bs.length % size then (false, c) else feed a (fixeds size (bs.length / size) bs) c

theorem packedFixeds_spec (size : Nat) (a : NumAct γ) (bs : Bytes) (c : γ) : PackedFixedResult size a bs c (packedFixeds size a bs c) := by
  unfold packedFixeds
  split
  · exact .inl ⟨by omega, rfl⟩
  · obtain ⟨h1, h2⟩ := fixeds_spec size (bs.length / size) bs (by rw [Nat.div_mul_cancel (Nat.dvd_of_mod_eq_zero (by omega))])
    exact .inr ⟨_, h2, h1, rfl⟩

theorem packedFixedString_spec {size : Nat} (hs : 0 < size) (a : NumAct γ) : ∀ (k : Nat) (bs : Bytes) (c : γ), bs.length = k * size →
    packedFixedString size a bs c = some (feed a (fixeds size k bs) c)
  | 0, bs, c, h => by
    rw [packedFixedString, if_pos (by simpa using h)]; rfl
  | k + 1, bs, c, h => by
    rw [Nat.succ_mul] at h
    rw [packedFixedString, if_neg (by omega), if_neg (by omega), fixeds, feed]
    have := packedFixedString_spec hs a k (bs.drop size) (a (leNat (bs.take size)) c).2 (by rw [List.length_drop]; omega)
    generalize a (leNat (bs.take size)) c = x at *
    obtain ⟨ok, c'⟩ := x
    cases ok with
    | false => rfl
    | true => exact this

theorem packedFixedStringChecked_spec {size : Nat} (hs : 0 < size) (a : NumAct γ) : StrRefines (packedFixedStringChecked size a) (packedFixeds size a) := by
  intro bs c
  unfold packedFixedStringChecked packedFixeds
  split
  · rfl
  · exact packedFixedString_spec hs a _ bs c (by rw [Nat.div_mul_cancel (Nat.dvd_of_mod_eq_zero (by omega))])

theorem packedFixedReaderLoop_spec {size : Nat} (hs : 0 < size) (a : NumAct γ) : ∀ (k : Nat) (c : γ) (s : Src), s.rd.Wf → Alive s.rd →
    ∃ r s', packedFixedReaderLoop size a (k * size) c s = some (r, s') ∧
      (k * size ≤ s.rd.rest.length → r = feed a (fixeds size k (s.rd.rest.take (k * size))) c ∧
        (r.1 = true → Moved s.rd s'.rd (s.rd.rest.drop (k * size)) ∧ s'.extra = s.extra)) ∧
      (s.rd.rest.length < k * size → r.1 = false)
  | 0, c, s, hwf, hal => by
    rw [packedFixedReaderLoop, if_pos (by omega)]
    exact ⟨_, _, rfl, fun _ => ⟨rfl, fun _ => ⟨⟨by simp, hal, hwf, rfl⟩, rfl⟩⟩, fun h => by omega⟩
  | k + 1, c, ⟨rd, extra⟩, hwf, hal => by
    dsimp only at hwf hal ⊢
    have hm : (k + 1) * size = k * size + size := Nat.succ_mul ..
    generalize hN : (k + 1) * size = N at *
    rw [packedFixedReaderLoop, if_neg (by omega)]
    dsimp only
    rcases hal with hok | ⟨d1, d2, d3⟩
    rotate_left
    · have hp : rd.pull size = (false, rd) := by
        have : rd.avail ≤ rd.rest.length := hwf
        rw [d2] at this
        have : rd.avail = 0 := by simpa using this
        unfold Rd.pull
        rw [if_neg (by omega), if_pos d1]
      have : readFixed size rd = (none, rd) := by
        unfold readFixed
        simp only [hp, if_true]
      rw [this]
      exact ⟨_, _, rfl, fun h => by rw [d2] at h; simp at h; omega, fun _ => rfl⟩
    rcases readFixed_spec size rd hwf hok with ⟨h, rd', e, m1, m2, m3, m4⟩ | ⟨h, s', e⟩
    · rw [e]
      dsimp only
      have ht : (rd.rest.take N).take size = rd.rest.take size := by rw [List.take_take, Nat.min_eq_left (by omega)]
      have hd : (rd.rest.take N).drop size = (rd.rest.drop size).take (k * size) := by
        rw [List.drop_take, show N - size = k * size by omega]
      obtain ⟨r, s', g1, g2, g3⟩ := packedFixedReaderLoop_spec hs a k (a (leNat (rd.rest.take size)) c).2 ⟨rd', extra⟩ m3 m2
      dsimp only at g2 g3
      rw [m1, List.length_drop, List.drop_drop] at g2
      rw [m1, List.length_drop] at g3
      rw [fixeds, ht, hd, feed, show N - size = k * size by omega]
      generalize a (leNat (rd.rest.take size)) c = x at *
      obtain ⟨ok, c'⟩ := x
      cases ok with
      | false =>
        exact ⟨_, _, rfl, fun _ => ⟨rfl, fun h => (Bool.false_ne_true h).elim⟩, fun _ => rfl⟩
      | true =>
        refine ⟨r, s', g1, fun hl => ?_, fun hl => g3 (by omega)⟩
        obtain ⟨k1, k2⟩ := g2 (by omega)
        refine ⟨k1, fun hr => ?_⟩
        obtain ⟨⟨j1, j2, j3, j4⟩, j5⟩ := k2 hr
        exact ⟨⟨by rw [j1, show size + k * size = N by omega], j2, j3, j4.trans m4⟩, j5⟩
    · rw [e]
      exact ⟨_, _, rfl, fun hl => by omega, fun _ => rfl⟩

theorem packedFixedReader_spec {size : Nat} (hs : 0 < size) (a : NumAct γ) : RdRefines (packedFixedReader size a) (packedFixeds size a) := by
  rintro n c ⟨rd, extra⟩ hwf hok
  dsimp only at hwf hok ⊢
  unfold packedFixedReader packedFixeds
  dsimp only
  by_cases hm : 0 < n % size
  · rw [if_pos hm]
    refine ⟨_, _, rfl, fun hl => ⟨?_, fun h => (Bool.false_ne_true h).elim⟩, fun _ => rfl⟩
    rw [List.length_take, Nat.min_eq_left hl, if_pos hm]
  · rw [if_neg hm]
    have hk : n / size * size = n := Nat.div_mul_cancel (Nat.dvd_of_mod_eq_zero (by omega))
    obtain ⟨b, rd', p1, p2, p3, p4, p5, p6⟩ := pull_one rd hwf hok
    rw [p1]
    dsimp only
    have htl : n ≤ rd.rest.length → (rd.rest.take n).length = n := fun h => by rw [List.length_take, Nat.min_eq_left h]
    by_cases hfast : b = true ∧ n ≤ rd'.avail
    · have hle : n ≤ rd.rest.length := by
        have : rd'.avail ≤ rd'.rest.length := p4
        rw [p2] at this
        have := hfast.2; omega
      rw [if_pos hfast, buffer_take p2 hfast.2, packedFixedString_spec hs a (n / size) _ c (by rw [htl hle, hk])]
      refine ⟨_, _, rfl, fun _ => ⟨?_, fun _ => ⟨⟨by rw [Rd.advance_rest, p2], .inl (p5 hfast.1), Rd.wf_advance p4, p3⟩, rfl⟩⟩, fun h => by omega⟩
      rw [htl hle, if_neg hm]
    · rw [if_neg hfast]
      have hal : Alive rd' := by
        cases b with
        | true => exact .inl (p5 rfl)
        | false =>
          obtain ⟨q1, q2, q3⟩ := p6 rfl
          cases hf : rd.fails with
          | false => rw [hf] at q3; exact .inl q3
          | true => rw [hf] at q3; exact .inr ⟨q3, p2.trans q1, p3.trans hf⟩
      obtain ⟨r, s', g1, g2, g3⟩ := packedFixedReaderLoop_spec hs a (n / size) c ⟨rd', extra⟩ p4 hal
      rw [hk] at g1 g2 g3
      dsimp only at g2 g3
      rw [p2] at g2 g3
      refine ⟨r, s', g1, fun hl => ?_, g3⟩
      obtain ⟨k1, k2⟩ := g2 hl
      rw [htl hl, if_neg hm]
      refine ⟨k1, fun h => ?_⟩
      obtain ⟨⟨j1, j2, j3, j4⟩, j5⟩ := k2 h
      exact ⟨⟨j1, j2, j3, j4.trans p3⟩, j5⟩

/-! ## Strings and submessages from a `Reader` -/

theorem stringReader_spec (a : StrAct γ) : RdRefines (stringReader a) a := by
  rintro n c ⟨rd, extra⟩ hwf hok
  dsimp only at hwf hok ⊢
  unfold stringReader
  rcases readBytes_spec n rd hwf hok with ⟨h, s', e, m⟩ | ⟨h, s', e⟩
  · dsimp only; rw [e]
    exact ⟨_, _, rfl, fun _ => ⟨rfl, fun _ => ⟨m, rfl⟩⟩, fun h' => by omega⟩
  · dsimp only; rw [e]
    exact ⟨_, _, rfl, fun h' => by omega, fun _ => rfl⟩

theorem messageReader_spec {hs : List (Handler γ (RdAct γ))} {ms : List (Meaning γ)} (H : RefinesAll RdRefines hs ms) : RdRefines (messageReader hs) (message ms) := by
  intro n c s hwf hok
  have hrun : ∀ s0 : Src, s0.rd.Wf → s0.rd.ok = true → ∃ r rd', readMessage hs false (some s0.extra) none c s0.rd = some (r, rd') ∧
      r.1 = (message ms s0.rd.rest c).1 ∧ (r.1 = true → r = message ms s0.rd.rest c ∧ rd'.rest = [] ∧ rd'.ok = (!s0.rd.fails) ∧ rd'.Wf) ∧
      (s0.extra = some 0 → r = message ms s0.rd.rest c) := by
    intro s0 h1 h2
    unfold readMessage readMessageOpen
    dsimp only
    by_cases hsup : supports (·.len) hs = true
    · rw [if_pos hsup]
      obtain ⟨r, s', g1, g2, g3, g4⟩ := readerMessage_spec H c s0 h1 (.inl h2)
      rw [show (⟨s0.rd, s0.extra⟩ : Src) = s0 from rfl, g1]
      refine ⟨r, s'.rd, by simp, g2, fun h => ?_, fun h => g4 (.inl h)⟩
      obtain ⟨k1, k2, k3, k4, -⟩ := g3 h
      exact ⟨k1, k2, k3, k4⟩
    · rw [if_neg hsup]
      obtain ⟨r, s', g1, g2, g3, g4⟩ := readerMessage_spec H c ⟨s0.rd, none⟩ h1 (.inl h2)
      rw [g1]
      refine ⟨r, s'.rd, by simp, g2, fun h => ?_, fun h => g4 (.inr ((Bool.not_eq_true _).mp hsup))⟩
      obtain ⟨k1, k2, k3, k4, -⟩ := g3 h
      exact ⟨k1, k2, k3, k4⟩
  unfold messageReader
  by_cases hl : n ≤ s.rd.rest.length
  · obtain ⟨l1, l2, l3, l4, l5⟩ := limit_le hl hwf
    obtain ⟨r, rd', g1, g2, g3, g4⟩ := hrun (s.limit n) l3 (l2.trans hok)
    rw [g1]
    rw [l1, l4] at g3
    rw [l1] at g4
    have e := g4 l5
    obtain ⟨ok, c'⟩ := r
    cases ok with
    | false => exact ⟨_, _, rfl, fun _ => ⟨e, fun h => (Bool.false_ne_true h).elim⟩, fun h => by omega⟩
    | true =>
      obtain ⟨-, k2, k3, k4⟩ := g3 rfl
      have hu := unlimit_le (s := s) (s' := ⟨rd', (s.limit n).extra⟩) hl k2 k3 k4
      dsimp only
      generalize s.unlimit n ⟨rd', (s.limit n).extra⟩ = s2 at hu ⊢
      obtain ⟨⟨u1, u2, u3, u4⟩, u5⟩ := hu
      have hz : n - (s.rd.rest.length - s2.rd.rest.length) = 0 := by rw [u1, List.length_drop]; omega
      rw [hz]
      have hsk : skip 0 s2.rd = (true, s2.rd.advance 0) := by
        unfold skip
        rw [if_pos (Nat.zero_le _)]
      rw [hsk]
      refine ⟨_, _, rfl, fun _ => ⟨e, fun _ => ⟨⟨by simpa using u1, ?_, Rd.wf_advance u3, u4⟩, u5⟩⟩, fun h => by omega⟩
      rcases u2 with h | ⟨h1, h2, h3⟩
      · exact .inl h
      · exact .inr ⟨h1, by simpa using h2, h3⟩
  · obtain ⟨l1, l2, l3, l4, l5⟩ := limit_gt (s := s) (n := n) (by omega) hwf
    obtain ⟨r, rd', g1, g2, g3, g4⟩ := hrun (s.limit n) l3 (l2.trans hok)
    rw [g1]
    obtain ⟨ok, c'⟩ := r
    cases ok with
    | false => exact ⟨_, _, rfl, fun h => absurd h hl, fun _ => rfl⟩
    | true =>
      obtain ⟨-, k2, k3, k4⟩ := g3 rfl
      rw [l4] at k3
      have k3 : rd'.ok = false := k3
      refine ⟨_, _, rfl, fun h => absurd h hl, fun _ => ?_⟩
      have ha : rd'.avail = 0 := by
        have : rd'.avail ≤ rd'.rest.length := k4
        rw [k2] at this; simpa using this
      unfold Src.unlimit
      rw [if_neg hl]
      dsimp only
      rw [k2]
      unfold skip
      dsimp only
      rw [if_neg (by rw [ha]; simp; omega), if_pos k3]

/-- `ReadMessage()` from a `Reader`. -/
theorem readMessage_spec {hs : List (Handler γ (RdAct γ))} {ms : List (Meaning γ)} (H : RefinesAll RdRefines hs ms) (owning : Bool) (own : Option (Option Nat))
    (size : Option Nat) (c : γ) (s : Rd) (hwf : s.Wf) (hok : s.ok = true) :
    ∃ r s', readMessage hs owning own size c s = some (r, s') ∧
      (r.1 = true ↔ (message ms s.rest c).1 = true ∧ (s.fails = true → owning = false ∧ (supports (·.len) hs = true → own ≠ none))) ∧
      (r.1 = true → r.2 = (message ms s.rest c).2 ∧ s'.rest = [] ∧ s'.ok = (!s.fails)) ∧
      (supports (·.len) hs = false ∨ own = some (some 0) ∨ (own = none ∧ size = some s.rest.length) → r.2 = (message ms s.rest c).2) := by
  have hrun : ∀ e : Option Nat, ∃ r s', readerMessage hs c ⟨s, e⟩ = some (r, s') ∧ r.1 = (message ms s.rest c).1 ∧
      (r.1 = true → r = message ms s.rest c ∧ s'.rd.rest = [] ∧ s'.rd.ok = (!s.fails) ∧ s'.rd.Wf ∧ s'.rd.fails = s.fails ∧ s'.extra = e) ∧
      (e = some 0 ∨ supports (·.len) hs = false → r = message ms s.rest c) := fun e => readerMessage_spec H c ⟨s, e⟩ hwf (.inl hok)
  -- the part before closing
  have hmid : ∃ r s', readMessageOpen hs own size c s = some (r, s') ∧
      (r.1 = true ↔ (message ms s.rest c).1 = true ∧ (s.fails = true → (supports (·.len) hs = true → own ≠ none))) ∧
      (r.1 = true → r.2 = (message ms s.rest c).2 ∧ s'.rd.rest = [] ∧ s'.rd.ok = (!s.fails) ∧ s'.rd.Wf ∧ s'.rd.fails = s.fails) ∧
      (supports (·.len) hs = false ∨ own = some (some 0) ∨ (own = none ∧ size = some s.rest.length) → r.2 = (message ms s.rest c).2) := by
    unfold readMessageOpen
    by_cases hsup : supports (·.len) hs = true
    · rw [if_pos hsup]
      cases own with
      | some e =>
        obtain ⟨r, s', g1, g2, g3, g4⟩ := hrun e
        refine ⟨r, s', g1, ?_, fun h => ?_, fun h => ?_⟩
        · rw [g2]; simp
        · obtain ⟨k1, k2, k3, k4, k5, -⟩ := g3 h
          exact ⟨by rw [k1], k2, k3, k4, k5⟩
        · rcases h with h | h | h
          · rw [h] at hsup; cases hsup
          · rw [g4 (.inl (Option.some.inj h))]
          · cases h.1
      | none =>
        obtain ⟨r, s', g1, g2, g3, g4⟩ := hrun (size.map (· - s.rest.length))
        dsimp only
        rw [g1]
        refine ⟨_, s', rfl, ?_, fun h => ?_, fun h => ?_⟩
        · dsimp only
          rw [Bool.and_eq_true, ← g2]
          constructor
          · rintro ⟨h1, h2⟩
            refine ⟨h1, fun h => ?_⟩
            rw [(g3 h1).2.2.1, h] at h2; cases h2
          · rintro ⟨h1, h2⟩
            refine ⟨h1, ?_⟩
            rw [(g3 h1).2.2.1]
            cases hf : s.fails with
            | false => rfl
            | true => exact absurd rfl (h2 hf hsup)
        · rw [Bool.and_eq_true] at h
          obtain ⟨k1, k2, k3, k4, k5, -⟩ := g3 h.1
          exact ⟨by rw [k1], k2, k3, k4, k5⟩
        · dsimp only
          rcases h with h | h | h
          · rw [h] at hsup; cases hsup
          · cases h
          · rw [g4 (.inl (by rw [h.2]; simp))]
    · rw [if_neg hsup]
      obtain ⟨r, s', g1, g2, g3, g4⟩ := hrun none
      refine ⟨r, s', g1, ?_, fun h => ?_, fun h => ?_⟩
      · rw [g2]
        exact ⟨fun h => ⟨h, fun _ h' => absurd h' hsup⟩, fun h => h.1⟩
      · obtain ⟨k1, k2, k3, k4, k5, -⟩ := g3 h
        exact ⟨by rw [k1], k2, k3, k4, k5⟩
      · rw [g4 (.inr ((Bool.not_eq_true _).mp hsup))]
  obtain ⟨r, s', g1, g2, g3, g4⟩ := hmid
  unfold readMessage
  rw [g1]
  dsimp only
  cases owning with
  | false =>
    rw [if_neg (by decide)]
    refine ⟨r, s'.rd, rfl, ?_, fun h => ⟨(g3 h).1, (g3 h).2.1, (g3 h).2.2.1⟩, g4⟩
    rw [g2]
    exact ⟨fun h => ⟨h.1, fun hf => ⟨rfl, h.2 hf⟩⟩, fun h => ⟨h.1, fun hf => (h.2 hf).2⟩⟩
  | true =>
    rw [if_pos rfl]
    obtain ⟨ok, c'⟩ := r
    cases ok with
    | false =>
      rw [if_neg (by simp)]
      refine ⟨_, _, rfl, ⟨fun h => ?_, fun h => ?_⟩, fun h => ?_, g4⟩
      · cases h
      · exact absurd (g2.mpr ⟨h.1, fun hf => (h.2 hf).2⟩) Bool.false_ne_true
      · cases h
    | true =>
      rw [if_pos rfl]
      obtain ⟨k1, k2, k3, k4, k5⟩ := g3 rfl
      have hp : (s'.rd.pull 1).1 = false ∧ (s'.rd.pull 1).2.rest = [] ∧ (s'.rd.pull 1).2.ok = !s.fails := by
        have ha : s'.rd.avail = 0 := by
          have : s'.rd.avail ≤ s'.rd.rest.length := k4
          rw [k2] at this; simpa using this
        unfold Rd.pull
        rw [if_neg (by omega)]
        split
        · exact ⟨rfl, k2, k3⟩
        · rw [if_neg (by rw [k2]; simp)]
          exact ⟨rfl, k2, by rw [← k5]⟩
      rw [hp.1, if_neg (by decide)]
      refine ⟨_, _, rfl, ?_, fun _ => ⟨k1, hp.2.1, hp.2.2⟩, g4⟩
      dsimp only
      rw [hp.2.2, Bool.true_and]
      have hm := (g2.mp rfl).1
      cases hf : s.fails with
      | false => exact ⟨fun _ => ⟨hm, fun h => by cases h⟩, fun _ => rfl⟩
      | true => exact ⟨fun h => (by cases h), fun h => (Bool.false_ne_true (h.2 rfl).1.symm).elim⟩

end
end Riegeli.Msg
