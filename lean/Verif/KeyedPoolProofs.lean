import Verif.PoolProofs

/-!
# `KeyedRecyclingPool` is a list of idle objects with keys (C48)

`by_age_` and `by_key_` are two views of one list of cells, oldest first; a cell
without an object is the one to which `cache_` refers.
-/

namespace Riegeli.Pool

variable {κ β : Type}

structure Cell (κ β : Type) where
  id : Nat
  key : κ
  object : Option β
  deadline : Option Nat

def Cell.node (c : Cell κ β) : AgeNode κ := ⟨c.id, c.key, c.deadline⟩
def Cell.entry (c : Cell κ β) : KeyEntry β := ⟨c.object, c.id⟩
def Cell.idle (c : Cell κ β) : Option (κ × β × Option Nat) :=
  c.object.map fun b => (c.key, b, c.deadline)

/-- The idle objects among the cells. -/
def live (cs : List (Cell κ β)) : Idle κ β := cs.filterMap Cell.idle

/-- The entries of the key `k`. -/
def ents [DecidableEq κ] (k : κ) (cs : List (Cell κ β)) : List (KeyEntry β) :=
  (cs.filter (fun c => decide (c.key = k))).map Cell.entry

def keyMap [DecidableEq κ] (cs : List (Cell κ β)) : κ → Option (List (KeyEntry β)) :=
  fun k => nonEmpty (ents k cs)

/-- Which cell has no object. -/
def CacheOk (cache : Option κ) (cs : List (Cell κ β)) : Prop :=
  match cache with
  | none => ∀ c ∈ cs, c.object.isSome
  | some k => ∃ A c B, cs = A ++ c :: B ∧ c.key = k ∧ c.object = none ∧
      (∀ x ∈ A, x.object.isSome) ∧ ∀ x ∈ B, x.object.isSome ∧ x.key ≠ k

structure Core [DecidableEq κ] (p : Keyed κ β) (cs : List (Cell κ β)) : Prop where
  age : p.byAge = cs.map Cell.node
  key : p.byKey = keyMap cs
  nodup : (cs.map Cell.id).Nodup
  fresh : ∀ c ∈ cs, c.id < p.fresh

def Keyed.Repr [DecidableEq κ] (max : Nat) (p : Keyed κ β) (xs : Idle κ β) : Prop :=
  p.maxSize = max ∧ ∃ cs, Core p cs ∧ CacheOk p.cache cs ∧ cs.length ≤ max ∧ xs = live cs

variable [DecidableEq κ]

theorem ents_append (k : κ) (A B : List (Cell κ β)) : ents k (A ++ B) = ents k A ++ ents k B := by
  simp [ents]

theorem ents_cons (k : κ) (c : Cell κ β) (B : List (Cell κ β)) :
    ents k (c :: B) = if c.key = k then c.entry :: ents k B else ents k B := by
  by_cases h : c.key = k <;> simp [ents, h]

theorem ents_nil_of {k : κ} {A : List (Cell κ β)} (h : ∀ c ∈ A, c.key ≠ k) : ents k A = [] := by
  simp only [ents, List.map_eq_nil_iff, List.filter_eq_nil_iff]
  intro c hc; simpa using h c hc

theorem nonEmpty_cons (e : KeyEntry β) (es : List (KeyEntry β)) :
    nonEmpty (e :: es) = some (e :: es) := rfl

theorem nonEmpty_snoc (es : List (KeyEntry β)) (e : KeyEntry β) :
    nonEmpty (es ++ [e]) = some (es ++ [e]) := by
  cases es <;> rfl

theorem nonEmpty_nil : nonEmpty ([] : List (KeyEntry β)) = none := rfl

theorem nonEmpty_getD (es : List (KeyEntry β)) : (nonEmpty es).getD [] = es := by
  cases es <;> rfl

theorem live_append (A B : List (Cell κ β)) : live (A ++ B) = live A ++ live B := by
  simp [live]

theorem live_cons (c : Cell κ β) (B : List (Cell κ β)) :
    live (c :: B) = (c.idle.toList) ++ live B := by
  simp only [live, List.filterMap_cons]
  cases c.idle <;> rfl

theorem live_null {c : Cell κ β} (h : c.object = none) (B : List (Cell κ β)) :
    live (c :: B) = live B := by
  rw [live_cons]; simp [Cell.idle, h]

theorem live_some {c : Cell κ β} {b : β} (h : c.object = some b) (B : List (Cell κ β)) :
    live (c :: B) = (c.key, b, c.deadline) :: live B := by
  rw [live_cons]; simp [Cell.idle, h]

theorem live_length {cs : List (Cell κ β)} (h : ∀ c ∈ cs, c.object.isSome) :
    (live cs).length = cs.length := by
  induction cs with
  | nil => rfl
  | cons c cs ih =>
    obtain ⟨b, hb⟩ := Option.isSome_iff_exists.mp (h c (by simp))
    rw [live_some hb]; simp [ih (fun x hx => h x (by simp [hx]))]

/-- Either no cell has the key `k`, or there is a last one. -/
theorem last_key (k : κ) : ∀ cs : List (Cell κ β), (∀ c ∈ cs, c.key ≠ k) ∨
    ∃ A c B, cs = A ++ c :: B ∧ c.key = k ∧ ∀ x ∈ B, x.key ≠ k := by
  intro cs
  induction cs with
  | nil => left; simp
  | cons y ys ih =>
    rcases ih with ih | ⟨A, c, B, h1, h2, h3⟩
    · by_cases hy : y.key = k
      · exact Or.inr ⟨[], y, ys, rfl, hy, ih⟩
      · left
        intro c hc
        rcases List.mem_cons.mp hc with rfl | hc
        · exact hy
        · exact ih c hc
    · exact Or.inr ⟨y :: A, c, B, by rw [h1]; rfl, h2, h3⟩

theorem filter_node {cs : List (Cell κ β)} {i : Nat} (h : i ∉ cs.map Cell.id) :
    (cs.map Cell.node).filter (fun n => n.id != i) = cs.map Cell.node := by
  rw [List.filter_eq_self]
  intro n hn
  obtain ⟨c, hc, rfl⟩ := List.mem_map.mp hn
  simp only [Cell.node, bne_iff_ne]
  intro he; exact h (List.mem_map.mpr ⟨c, hc, he⟩)

/-- Erasing the node of the cell `c`. -/
theorem filter_mid {A B : List (Cell κ β)} {c : Cell κ β}
    (h : ((A ++ c :: B).map Cell.id).Nodup) :
    ((A ++ c :: B).map Cell.node).filter (fun n => n.id != c.id) = (A ++ B).map Cell.node := by
  rw [List.map_append, List.map_cons, List.nodup_append] at h
  obtain ⟨h1, h2, h3⟩ := h
  rw [List.nodup_cons] at h2
  have hA : c.id ∉ A.map Cell.id := fun hm => h3 _ hm c.id (by simp) rfl
  rw [List.map_append, List.map_cons, List.filter_append, List.filter_cons, filter_node hA,
    filter_node h2.1, List.map_append]
  simp [Cell.node]

theorem nodup_mid {A B : List (Cell κ β)} {c : Cell κ β}
    (h : ((A ++ c :: B).map Cell.id).Nodup) : ((A ++ B).map Cell.id).Nodup :=
  List.Nodup.sublist (((List.sublist_cons_self c B).append_left A).map _) h

theorem mem_mid {A B : List (Cell κ β)} {c x : Cell κ β} (h : x ∈ A ++ B) : x ∈ A ++ c :: B := by
  simp only [List.mem_append, List.mem_cons] at h ⊢
  rcases h with h | h <;> simp [h]

theorem keyMap_mid {A B : List (Cell κ β)} {c : Cell κ β} (hB : ∀ x ∈ B, x.key ≠ c.key) :
    upd (keyMap (A ++ c :: B)) c.key (nonEmpty (ents c.key A)) = keyMap (A ++ B) := by
  funext k
  simp only [upd, keyMap]
  split
  · rename_i h; subst h
    rw [ents_append, ents_nil_of hB, List.append_nil]
  · rename_i h
    rw [ents_append, ents_append, ents_cons, if_neg (Ne.symm h)]

theorem ents_mid {A B : List (Cell κ β)} {c : Cell κ β} (hB : ∀ x ∈ B, x.key ≠ c.key) :
    ents c.key (A ++ c :: B) = ents c.key A ++ [c.entry] := by
  rw [ents_append, ents_cons, if_pos rfl, ents_nil_of hB]

theorem Keyed.finishErase_repr {p : Keyed κ β} {cs : List (Cell κ β)} (h : Core p cs)
    (hc : CacheOk p.cache cs) :
    ∃ p' cs', p.finishErase = some p' ∧ Core p' cs' ∧ (∀ c ∈ cs', c.object.isSome) ∧
      live cs' = live cs ∧ cs'.length ≤ cs.length ∧ p'.maxSize = p.maxSize := by
  unfold Keyed.finishErase
  cases hk : p.cache with
  | none =>
    rw [hk] at hc
    exact ⟨p, cs, rfl, h, hc, rfl, Nat.le_refl _, rfl⟩
  | some k =>
    rw [hk] at hc
    obtain ⟨A, c, B, h1, h2, h3, h4, h5⟩ := hc
    subst h1; subst h2
    have hB : ∀ x ∈ B, x.key ≠ c.key := fun x hx => (h5 x hx).2
    simp only [h.key]
    rw [show keyMap (A ++ c :: B) c.key = some (ents c.key A ++ [c.entry]) by
      simp only [keyMap, ents_mid hB, nonEmpty_snoc]]
    simp only [List.getLast?_append, List.getLast?_singleton, Option.some_or, List.dropLast_concat]
    rw [if_neg (by simp [Cell.entry, h3])]
    refine ⟨_, A ++ B, rfl, ⟨?_, ?_, ?_, ?_⟩, ?_, ?_, ?_, rfl⟩
    · show p.byAge.filter _ = _
      rw [h.age]; exact filter_mid h.nodup
    · exact keyMap_mid hB
    · exact nodup_mid h.nodup
    · intro x hx; exact h.fresh x (mem_mid hx)
    · intro x hx
      rcases List.mem_append.mp hx with hx | hx
      · exact h4 x hx
      · exact (h5 x hx).1
    · rw [live_append, live_append, live_null h3]
    · simp

theorem takeNewest_none {k : κ} {xs : Idle κ β} (h : ∀ x ∈ xs, x.1 ≠ k) : takeNewest k xs = none := by
  induction xs with
  | nil => rfl
  | cons x xs ih =>
    simp [takeNewest, ih (fun y hy => h y (by simp [hy])), h x (by simp)]

theorem takeNewest_mid {k : κ} {xs ys : Idle κ β} {x : κ × β × Option Nat} (hx : x.1 = k)
    (h : ∀ y ∈ ys, y.1 ≠ k) : takeNewest k (xs ++ x :: ys) = some (x.2.1, xs ++ ys) := by
  induction xs with
  | nil => simp [takeNewest, takeNewest_none h, hx]
  | cons z zs ih => simp [takeNewest, ih]

omit [DecidableEq κ] in
theorem live_key {k : κ} {cs : List (Cell κ β)} (h : ∀ c ∈ cs, c.key ≠ k) :
    ∀ x ∈ live cs, x.1 ≠ k := by
  intro x hx
  obtain ⟨c, hc, he⟩ := List.mem_filterMap.mp hx
  simp only [Cell.idle, Option.map_eq_some_iff] at he
  obtain ⟨b, _, rfl⟩ := he
  exact h c hc

theorem Keyed.take_repr {max : Nat} {p : Keyed κ β} {xs : Idle κ β} (k : κ)
    (h : Keyed.Repr max p xs) :
    ∃ p', p.take k = some ((takeNewest k xs).map (·.1), p') ∧
      Keyed.Repr max p' (((takeNewest k xs).map (·.2)).getD xs) := by
  obtain ⟨hm, cs0, hcore, hcache, hle, rfl⟩ := h
  obtain ⟨p1, cs, h1, h2, h3, h4, h5, h6⟩ := Keyed.finishErase_repr hcore hcache
  simp only [Keyed.take, h1]
  rw [← h4]
  rcases last_key k cs with hk | ⟨A, c, B, hcs, hck, hB⟩
  · have hkn : p1.byKey k = none := by
      rw [h2.key]; simp only [keyMap, ents_nil_of hk, nonEmpty_nil]
    rw [takeNewest_none (live_key hk)]
    simp only [hkn]
    refine ⟨_, rfl, by simp [h6, hm], cs, ⟨h2.age, h2.key, h2.nodup, h2.fresh⟩, h3, by omega, rfl⟩
  · subst hcs; subst hck
    obtain ⟨b, hb⟩ := Option.isSome_iff_exists.mp (h3 c (by simp))
    have hkm : p1.byKey c.key = some (ents c.key A ++ [c.entry]) := by
      rw [h2.key]; simp only [keyMap, ents_mid hB, nonEmpty_snoc]
    simp only [hkm, List.getLast?_append, List.getLast?_singleton, Option.some_or,
      List.dropLast_concat]
    have hlive : live (A ++ c :: B) = live A ++ (c.key, b, c.deadline) :: live B := by
      rw [live_append, live_some hb]
    rw [hlive, takeNewest_mid (k := c.key) (x := (c.key, b, c.deadline)) rfl (live_key hB)]
    simp only [Cell.entry, hb]
    refine ⟨_, rfl, by simp [h6, hm], A ++ { c with object := none } :: B, ⟨?_, ?_, ?_, ?_⟩, ?_, ?_, ?_⟩
    · show p1.byAge = _
      rw [h2.age]; simp [Cell.node]
    · show upd p1.byKey c.key _ = _
      rw [h2.key]
      funext k
      simp only [upd, keyMap]
      split
      · rename_i hkc; subst hkc
        rw [ents_append, ents_cons, if_pos rfl, ents_nil_of hB, nonEmpty_snoc]
        rfl
      · rename_i hkc
        rw [ents_append, ents_append, ents_cons, ents_cons, if_neg (Ne.symm hkc),
          if_neg (Ne.symm hkc)]
    · have := h2.nodup
      simpa using this
    · intro x hx
      simp only [List.mem_append, List.mem_cons] at hx
      rcases hx with hx | rfl | hx
      · exact h2.fresh x (by simp [hx])
      · exact h2.fresh c (by simp)
      · exact h2.fresh x (by simp [hx])
    · exact ⟨A, _, B, rfl, rfl, rfl, fun x hx => h3 x (by simp [hx]),
        fun x hx => ⟨h3 x (by simp [hx]), hB x hx⟩⟩
    · simp only [List.length_append, List.length_cons] at h5 ⊢; omega
    · simp only [Option.map_some, Option.getD_some]
      rw [live_append, live_null rfl]

theorem Keyed.evict_repr {max : Nat} {p : Keyed κ β} {cs : List (Cell κ β)} (hm : p.maxSize = max)
    (h : Core p cs) (hl : ∀ c ∈ cs, c.object.isSome) (hle : cs.length ≤ max + 1) :
    ∃ p' cs', p.evict = some
        (if max < cs.length then (live cs).head?.map (·.2.1) else none, p') ∧
      Core p' cs' ∧ (∀ c ∈ cs', c.object.isSome) ∧
      live cs' = (if max < cs.length then (live cs).tail else live cs) ∧ cs'.length ≤ max ∧
      p'.maxSize = max := by
  have hlen : p.byAge.length = cs.length := by rw [h.age]; simp
  unfold Keyed.evict
  rw [hm, hlen]
  by_cases hgt : max < cs.length
  · simp only [if_pos hgt]
    cases cs with
    | nil => simp at hgt
    | cons c cs =>
      obtain ⟨b, hb⟩ := Option.isSome_iff_exists.mp (hl c (by simp))
      have hkm : p.byKey c.key = some (c.entry :: ents c.key cs) := by
        rw [h.key]; simp only [keyMap, ents_cons, if_true, nonEmpty_cons]
      rw [h.age]
      simp only [List.map_cons, Cell.node, hkm, Cell.entry, hb]
      refine ⟨{ p with byAge := cs.map Cell.node
                       byKey := upd p.byKey c.key (nonEmpty (ents c.key cs)) }, cs,
        by rw [live_some hb]; simp [hm], ⟨rfl, ?_, ?_, ?_⟩, ?_, ?_, ?_, hm⟩
      · show upd p.byKey c.key _ = _
        rw [h.key]
        funext k
        simp only [upd, keyMap]
        split
        · rename_i hk; subst hk; rfl
        · rename_i hk; rw [ents_cons, if_neg (Ne.symm hk)]
      · have := h.nodup
        rw [List.map_cons, List.nodup_cons] at this
        exact this.2
      · intro x hx; exact h.fresh x (by simp [hx])
      · intro x hx; exact hl x (by simp [hx])
      · rw [live_some hb]; rfl
      · simp only [List.length_cons] at hle; omega
  · simp only [if_neg hgt]
    exact ⟨p, cs, rfl, h, hl, rfl, by omega, hm⟩

theorem Keyed.put_repr {max : Nat} {p : Keyed κ β} {xs : Idle κ β} (k : κ) (b : β)
    (d : Option Nat) (h : Keyed.Repr max p xs) :
    ∃ p', p.put k b d = some
        { evicted := (putNewest max (k, b, d) xs).1
          schedule := if (putNewest max (k, b, d) xs).2.length = 1 then d else none
          pool := p' } ∧
      Keyed.Repr max p' (putNewest max (k, b, d) xs).2 := by
  obtain ⟨hm, cs0, hcore, hcache, hle, rfl⟩ := h
  unfold Keyed.put
  by_cases hz : max = 0
  · subst hz
    have hcs0 : cs0 = [] := List.eq_nil_of_length_eq_zero (by omega)
    subst hcs0
    refine ⟨p, by simp [hm, putNewest, live], hm, [], hcore, hcache, hle, ?_⟩
    simp [putNewest, live]
  rw [if_neg (by omega)]
  by_cases hk : p.cache = some k
  · -- a cache hit
    rw [if_pos hk]
    rw [hk] at hcache
    obtain ⟨A, c, B, h1, h2, h3, h4, h5⟩ := hcache
    subst h1; subst h2
    have hB : ∀ x ∈ B, x.key ≠ c.key := fun x hx => (h5 x hx).2
    have hkm : p.byKey c.key = some (ents c.key A ++ [c.entry]) := by
      rw [hcore.key]; simp only [keyMap, ents_mid hB, nonEmpty_snoc]
    simp only [Keyed.hit, hkm, List.getLast?_append, List.getLast?_singleton, Option.some_or,
      List.dropLast_concat]
    rw [if_neg (by simp [Cell.entry, h3])]
    have hlive : live (A ++ c :: B) = live (A ++ B) := by
      rw [live_append, live_append, live_null h3]
    have hlen : (live (A ++ B)).length = (A ++ B).length := by
      apply live_length
      intro x hx
      rcases List.mem_append.mp hx with hx | hx
      · exact h4 x hx
      · exact (h5 x hx).1
    have hpn : putNewest max (c.key, b, d) (live (A ++ c :: B)) =
        (none, live (A ++ B) ++ [(c.key, b, d)]) := by
      rw [hlive, putNewest, if_pos]
      simp only [List.length_append, List.length_cons, List.length_nil] at hle hlen ⊢
      omega
    rw [hpn]
    have hage : p.byAge.filter (fun n => n.id != c.id) = (A ++ B).map Cell.node := by
      rw [hcore.age]; exact filter_mid hcore.nodup
    refine ⟨?_, ?_, ?_⟩
    · exact { p with
        byKey := upd p.byKey c.key (some (ents c.key A ++ [{ c.entry with object := some b }]))
        byAge := (A ++ B).map Cell.node ++ [{ id := c.id, key := c.key, deadline := d }]
        cache := none }
    · simp only [Option.map_some, Cell.entry, hage]
      congr 2
      simp only [List.length_append, List.length_map, List.length_singleton] at hlen ⊢
      rw [hlen]
      repeat' split
      all_goals first | rfl | omega
    · refine ⟨hm, A ++ B ++ [{ c with object := some b, deadline := d }], ⟨?_, ?_, ?_, ?_⟩, ?_, ?_, ?_⟩
      · simp [Cell.node]
      · show upd p.byKey c.key _ = _
        rw [hcore.key]
        funext k
        simp only [upd, keyMap]
        split
        · rename_i hkc; subst hkc
          rw [ents_append, ents_append, ents_nil_of hB, List.append_nil, ents_cons, if_pos rfl,
            show ents c.key ([] : List (Cell κ β)) = [] from rfl, nonEmpty_snoc]
          rfl
        · rename_i hkc
          rw [ents_append, ents_append, ents_append, ents_cons, ents_cons, if_neg (Ne.symm hkc),
            if_neg (Ne.symm hkc), show ents k ([] : List (Cell κ β)) = [] from rfl,
            List.append_nil]
      · have h1 := hcore.nodup
        have h2 := nodup_mid h1
        rw [List.map_append, List.nodup_append]
        refine ⟨h2, by simp, ?_⟩
        intro a ha x hx
        simp at hx; subst hx
        intro he; subst he
        rw [List.map_append, List.map_cons, List.nodup_append] at h1
        obtain ⟨_, h5, h6⟩ := h1
        rw [List.nodup_cons] at h5
        rw [List.map_append, List.mem_append] at ha
        rcases ha with ha | ha
        · exact h6 _ ha c.id (by simp) rfl
        · exact h5.1 ha
      · intro x hx
        show x.id < p.fresh
        rcases List.mem_append.mp hx with hx | hx
        · exact hcore.fresh x (mem_mid hx)
        · simp at hx; subst hx; exact hcore.fresh c (by simp)
      · intro x hx
        simp only [List.mem_append, List.mem_singleton] at hx
        rcases hx with (hx | hx) | rfl
        · exact h4 x hx
        · exact (h5 x hx).1
        · rfl
      · simp only [List.length_append, List.length_cons, List.length_nil] at hle ⊢; omega
      · rw [live_append (A ++ B)]
        rfl
  · -- a new cell
    rw [if_neg hk]
    obtain ⟨p1, cs, h1, h2, h3, h4, h5, h6⟩ := Keyed.finishErase_repr hcore hcache
    simp only [Keyed.add, h1]
    have hb2 : ∀ c ∈ cs ++ [({ id := p1.fresh, key := k, object := some b, deadline := d } : Cell κ β)],
        c.object.isSome := by
      intro x hx
      simp only [List.mem_append, List.mem_singleton] at hx
      rcases hx with hx | rfl
      · exact h3 x hx
      · rfl
    obtain ⟨p', cs', e1, e2, e3, e4, e5, e6⟩ := Keyed.evict_repr (max := max)
      (p := { p1 with
        byAge := p1.byAge ++ [{ id := p1.fresh, key := k, deadline := d }]
        byKey := upd p1.byKey k (some ((p1.byKey k).getD [] ++ [{ object := some b, age := p1.fresh }]))
        fresh := p1.fresh + 1 })
      (cs := cs ++ [{ id := p1.fresh, key := k, object := some b, deadline := d }])
      (by show p1.maxSize = max; omega)
      ⟨by rw [h2.age]; simp [Cell.node],
       by
        show upd p1.byKey k _ = _
        rw [h2.key]
        funext k'
        simp only [upd, keyMap]
        split
        · rename_i hkc; subst hkc
          rw [nonEmpty_getD, ents_append, ents_cons, if_pos rfl,
            show ents k' ([] : List (Cell κ β)) = [] from rfl, nonEmpty_snoc]
          rfl
        · rename_i hkc
          rw [ents_append, ents_cons, if_neg (Ne.symm hkc),
            show ents k' ([] : List (Cell κ β)) = [] from rfl, List.append_nil],
       by
        rw [List.map_append, List.nodup_append]
        refine ⟨h2.nodup, by simp, ?_⟩
        intro a ha x hx
        simp at hx; subst hx
        obtain ⟨c, hc, rfl⟩ := List.mem_map.mp ha
        have := h2.fresh c hc; omega,
       by
        intro x hx
        show x.id < p1.fresh + 1
        simp only [List.mem_append, List.mem_singleton] at hx
        rcases hx with hx | rfl
        · have := h2.fresh x hx; omega
        · show p1.fresh < _; omega⟩
      hb2 (by simp; omega)
    have hnew : live (cs ++ [({ id := p1.fresh, key := k, object := some b, deadline := d } : Cell κ β)])
        = live cs0 ++ [(k, b, d)] := by
      rw [live_append, h4]; rfl
    have hll := live_length h3
    rw [h4] at hll
    simp only [List.length_append, List.length_singleton] at e1 e4
    rw [hnew] at e1 e4
    have hpn : putNewest max (k, b, d) (live cs0) =
        (if max < cs.length + 1 then (live cs0 ++ [(k, b, d)]).head?.map (·.2.1) else none,
         if max < cs.length + 1 then (live cs0 ++ [(k, b, d)]).tail else live cs0 ++ [(k, b, d)]) := by
      unfold putNewest
      simp only [List.length_append, List.length_singleton, hll]
      by_cases hgt : max < cs.length + 1
      · rw [if_neg (by omega), if_pos hgt, if_pos hgt]
      · rw [if_pos (by omega), if_neg hgt, if_neg hgt]
    have hp2 : (putNewest max (k, b, d) (live cs0)).2 =
        if max < cs.length + 1 then (live cs0 ++ [(k, b, d)]).tail else live cs0 ++ [(k, b, d)] := by
      rw [hpn]
    have hp1 : (putNewest max (k, b, d) (live cs0)).1 =
        if max < cs.length + 1 then (live cs0 ++ [(k, b, d)]).head?.map (·.2.1) else none := by
      rw [hpn]
    rw [← hp2] at e4
    rw [← hp1] at e1
    rw [e1, Option.map_some]
    have hlen2 : p'.byAge.length = (live cs').length := by
      rw [e2.age, live_length e3]; simp
    rw [e4] at hlen2
    have hpos : 1 ≤ (putNewest max (k, b, d) (live cs0)).2.length := by
      rw [hpn]; simp only
      split
      · simp; omega
      · simp
    refine ⟨{ p' with cache := none }, ?_, e6, cs', ⟨e2.age, e2.key, e2.nodup, e2.fresh⟩, e3, e5, e4.symm⟩
    congr 2
    rw [hlen2]
    repeat' split
    all_goals first | rfl | omega

theorem Keyed.cleanGo_repr (now : Nat) : ∀ (cs : List (Cell κ β)) (cache : Option κ),
    CacheOk cache cs →
    ∃ cs' cache', Keyed.cleanGo now (cs.map Cell.node) (keyMap cs) cache = some
        { evicted := ((live cs).takeWhile (tooOld now)).map (·.2.1)
          schedule := ((live cs).dropWhile (tooOld now)).head?.map (·.2.2)
          pool := (cs'.map Cell.node, keyMap cs', cache') } ∧
      CacheOk cache' cs' ∧ live cs' = (live cs).dropWhile (tooOld now) ∧ cs'.Sublist cs := by
  intro cs
  induction cs with
  | nil =>
    intro cache _
    refine ⟨[], cache, rfl, ?_, rfl, List.Sublist.refl _⟩
    assumption
  | cons c cs ih =>
    intro cache hc
    have hkm : keyMap (c :: cs) c.key = some (c.entry :: ents c.key cs) := by
      simp only [keyMap, ents_cons, if_true, nonEmpty_cons]
    have hupd : upd (keyMap (c :: cs)) c.key (nonEmpty (ents c.key cs)) = keyMap cs := by
      funext k
      simp only [upd, keyMap]
      split
      · rename_i hk; subst hk; rfl
      · rename_i hk; rw [ents_cons, if_neg (Ne.symm hk)]
    cases ho : c.object with
    | none =>
      -- the cached cell
      have hcc : cache = some c.key ∧ (∀ x ∈ cs, x.object.isSome ∧ x.key ≠ c.key) := by
        cases cache with
        | none => have := hc c (by simp); simp [ho] at this
        | some k =>
          obtain ⟨A, c', B, h1, h2, h3, h4, h5⟩ := hc
          cases A with
          | nil =>
            simp only [List.nil_append, List.cons.injEq] at h1
            obtain ⟨rfl, rfl⟩ := h1
            subst h2
            exact ⟨rfl, h5⟩
          | cons a A =>
            simp only [List.cons_append, List.cons.injEq] at h1
            obtain ⟨rfl, rfl⟩ := h1
            have := h4 c (by simp); simp [ho] at this
      obtain ⟨rfl, hrest⟩ := hcc
      have hen : ents c.key cs = [] := ents_nil_of fun x hx => (hrest x hx).2
      rw [hen] at hkm hupd
      rw [nonEmpty_nil] at hupd
      obtain ⟨cs', cache', i1, i2, i3, i4⟩ := ih none (fun x hx => (hrest x hx).1)
      rw [live_null ho]
      refine ⟨cs', cache', ?_, i2, i3, i4.cons c⟩
      simp only [List.map_cons, Keyed.cleanGo, show c.node.key = c.key from rfl, hkm,
        show c.entry.object = none from ho, hupd]
      simp [i1]
    | some b =>
      rw [live_some ho]
      have hlt := later_eq now (c.key, b, c.deadline)
      cases hold : tooOld now (c.key, b, c.deadline) with
      | false =>
        rw [hold] at hlt
        refine ⟨c :: cs, cache, ?_, hc, by simp [hold, live_some ho], List.Sublist.refl _⟩
        simp only [List.map_cons, Keyed.cleanGo, show c.node.key = c.key from rfl, hkm,
          show c.entry.object = some b from ho, show c.node.deadline = c.deadline from rfl]
        simp only at hlt
        simp [hlt, hold]
      | true =>
        rw [hold] at hlt
        have hc' : CacheOk cache cs := by
          cases cache with
          | none => exact fun x hx => hc x (by simp [hx])
          | some k =>
            obtain ⟨A, c', B, h1, h2, h3, h4, h5⟩ := hc
            cases A with
            | nil =>
              simp only [List.nil_append, List.cons.injEq] at h1
              obtain ⟨rfl, rfl⟩ := h1
              rw [ho] at h3; simp at h3
            | cons a A =>
              simp only [List.cons_append, List.cons.injEq] at h1
              obtain ⟨rfl, rfl⟩ := h1
              exact ⟨A, c', B, rfl, h2, h3, fun x hx => h4 x (by simp [hx]), h5⟩
        obtain ⟨cs', cache', i1, i2, i3, i4⟩ := ih cache hc'
        refine ⟨cs', cache', ?_, i2, by simp [hold, i3], i4.cons c⟩
        simp only [List.map_cons, Keyed.cleanGo, show c.node.key = c.key from rfl, hkm,
          show c.entry.object = some b from ho, show c.node.deadline = c.deadline from rfl, hupd]
        simp only at hlt
        simp [hlt, i1, hold]

theorem Keyed.clean_repr {max : Nat} {p : Keyed κ β} {xs : Idle κ β} (now : Nat)
    (h : Keyed.Repr max p xs) :
    ∃ p', p.clean now = some
        { evicted := (xs.takeWhile (tooOld now)).map (·.2.1)
          schedule := (xs.dropWhile (tooOld now)).head?.map (·.2.2)
          pool := p' } ∧
      Keyed.Repr max p' (xs.dropWhile (tooOld now)) := by
  obtain ⟨hm, cs, hcore, hcache, hle, rfl⟩ := h
  obtain ⟨cs', cache', h1, h2, h3, h4⟩ := Keyed.cleanGo_repr now cs p.cache hcache
  refine ⟨{ p with byAge := cs'.map Cell.node, byKey := keyMap cs', cache := cache' },
    by rw [Keyed.clean, hcore.age, hcore.key, h1]; rfl, hm, cs', ⟨rfl, rfl, ?_, ?_⟩, h2, ?_,
    h3.symm⟩
  · exact hcore.nodup.sublist (h4.map _)
  · intro c hc; exact hcore.fresh c (h4.subset hc)
  · exact Nat.le_trans h4.length_le hle

theorem find_entry {cs : List (Cell κ β)} (h : (cs.map Cell.id).Nodup) {c : Cell κ β} (hc : c ∈ cs) :
    (ents c.key cs).find? (fun e => e.age == c.id) = some c.entry := by
  induction cs with
  | nil => simp at hc
  | cons x xs ih =>
    rw [List.map_cons, List.nodup_cons] at h
    rw [ents_cons]
    rcases List.mem_cons.mp hc with rfl | hc
    · simp [Cell.entry]
    · have hne : x.id ≠ c.id := fun he => h.1 (he ▸ List.mem_map.mpr ⟨c, hc, rfl⟩)
      split
      · rw [List.find?_cons_of_neg (by simp [Cell.entry, hne])]
        exact ih h.2 hc
      · exact ih h.2 hc

theorem filterMap_congr' {γ δ : Type} {f g : γ → Option δ} : ∀ {l : List γ},
    (∀ x ∈ l, f x = g x) → l.filterMap f = l.filterMap g := by
  intro l
  induction l with
  | nil => intro _; rfl
  | cons x xs ih =>
    intro h
    rw [List.filterMap_cons, List.filterMap_cons, h x (by simp), ih (fun y hy => h y (by simp [hy]))]

theorem Keyed.clear_repr {max : Nat} {p : Keyed κ β} {xs : Idle κ β} (h : Keyed.Repr max p xs) :
    p.clear.1 = xs.map (·.2.1) ∧ Keyed.Repr max p.clear.2 [] := by
  obtain ⟨hm, cs, hcore, hcache, hle, rfl⟩ := h
  constructor
  · simp only [Keyed.clear, hcore.age, hcore.key, List.filterMap_map]
    rw [live, List.map_filterMap]
    apply filterMap_congr'
    intro c hc
    have hf := find_entry hcore.nodup hc
    have hne : ents c.key cs ≠ [] := by intro he; rw [he] at hf; simp at hf
    have hk : keyMap cs c.key = some (ents c.key cs) := by
      simp only [keyMap]
      cases he : ents c.key cs with
      | nil => exact absurd he hne
      | cons _ _ => rfl
    simp only [Function.comp_apply, Cell.node, hk, Option.bind_some, hf, Cell.entry, Cell.idle]
    cases c.object <;> rfl
  · refine ⟨hm, [], ⟨rfl, ?_, by simp, by simp⟩, ?_, by simp, rfl⟩
    · funext k; rfl
    · intro c hc; simp at hc

/-- `KeyedRecyclingPool` implements the specification. -/
def keyed_correct (κ β : Type) [DecidableEq κ] : (keyed κ β).Correct where
  Repr := Keyed.Repr
  new := fun max => ⟨rfl, [], ⟨rfl, by funext k; rfl, by simp, by simp⟩,
    fun c hc => by simp at hc, by simp, rfl⟩
  take := fun k h => Keyed.take_repr k h
  put := fun k b d h => Keyed.put_repr k b d h
  clear := fun {_ s _} h =>
    ⟨_, _, rfl, List.Perm.of_eq (Keyed.clear_repr (p := s) h).1, (Keyed.clear_repr h).2⟩
  clean := fun now h => Keyed.clean_repr now h

end Riegeli.Pool
