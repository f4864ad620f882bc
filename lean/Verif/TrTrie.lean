import Verif.TrDec
import Verif.ProjSpec
/-!
# Transposed chunks: the tree of included fields implements the projection
-/
namespace Riegeli.Tr
open Riegeli.Proj

/-- The answer of the decoder for what the projection says. -/
def ofInclusion : Inclusion → Included
  | .keep => .yes
  | .clear => .existence
  | .remove => .no

/-! ## The tree -/

/-- Following a path from the root: the id reached. -/
def goto (m : List IncField) (p : List Nat) : Option (Option Nat) :=
  p.foldl (fun c f => c.bind (fun c => (findField m c f).map (fun x => some x.id))) (some none)

theorem goto_snoc (m : List IncField) (p : List Nat) (f : Nat) :
    goto m (p ++ [f]) = (goto m p).bind (fun c => (findField m c f).map (fun x => some x.id)) := by
  simp [goto, List.foldl_append]

/-- The type of the field at a path. -/
def typeAt (m : List IncField) (p : List Nat) (f : Nat) : Option IncludeType :=
  (goto m p).bind (fun c => (findField m c f).map (·.type))

/-- Ids are indices, and parents are in the tree. -/
structure Tree (m : List IncField) : Prop where
  id : ∀ (i : Nat) (x : IncField), m[i]? = some x → x.id = i
  parent : ∀ x : IncField, x ∈ m → ∀ p : Nat, x.parent = some p → p < m.length

theorem findField_mem {m : List IncField} {c : Option Nat} {f : Nat} {x : IncField} (h : findField m c f = some x) :
    x ∈ m ∧ x.parent = c ∧ x.field = f := by
  unfold findField at h
  have h1 := List.mem_of_find?_eq_some h
  have h2 := List.find?_some h
  simp only [decide_eq_true_eq] at h2
  exact ⟨h1, h2.1, h2.2⟩

theorem Tree.inj {m : List IncField} (h : Tree m) {x y : IncField} (hx : x ∈ m) (hy : y ∈ m) (he : x.id = y.id) : x = y := by
  obtain ⟨i, hi⟩ := List.mem_iff_getElem?.1 hx
  obtain ⟨j, hj⟩ := List.mem_iff_getElem?.1 hy
  have e1 := h.id i x hi
  have e2 := h.id j y hj
  have : i = j := by omega
  subst this
  rw [hi] at hj; cases hj; rfl

theorem Tree.id_lt {m : List IncField} (h : Tree m) {x : IncField} (hx : x ∈ m) : x.id < m.length := by
  obtain ⟨i, hi⟩ := List.mem_iff_getElem?.1 hx
  rw [h.id i x hi]
  exact (List.getElem?_eq_some_iff.1 hi).1

/-- Induction from the end. -/
theorem snoc_induction {P : List Nat → Prop} (h0 : P []) (h1 : ∀ p f, P p → P (p ++ [f])) (p : List Nat) : P p := by
  have : ∀ q : List Nat, P q.reverse := by
    intro q
    induction q with
    | nil => exact h0
    | cons f q ih => rw [List.reverse_cons]; exact h1 _ f ih
  have := this p.reverse
  rwa [List.reverse_reverse] at this

theorem snoc_cases (p : List Nat) : p = [] ∨ ∃ q f, p = q ++ [f] :=
  snoc_induction (P := fun p => p = [] ∨ ∃ q f, p = q ++ [f]) (Or.inl rfl) (fun q f _ => Or.inr ⟨q, f, rfl⟩) p

theorem goto_some {m : List IncField} (h : Tree m) {p : List Nat} {i : Nat} (hp : goto m p = some (some i)) : i < m.length := by
  rcases snoc_cases p with rfl | ⟨q, f, rfl⟩
  · cases hp
  · rw [goto_snoc] at hp
    cases hc : goto m q with
    | none => rw [hc] at hp; cases hp
    | some c =>
      rw [hc, Option.bind_some] at hp
      cases hf : findField m c f with
      | none => rw [hf] at hp; cases hp
      | some x =>
        rw [hf] at hp
        cases hp
        exact h.id_lt (findField_mem hf).1

theorem goto_inj {m : List IncField} (h : Tree m) : ∀ (p q : List Nat) (c : Option Nat), goto m p = some c → goto m q = some c →
    p = q := by
  intro p
  induction p using snoc_induction with
  | h0 =>
    intro q c h1 h2
    cases h1
    rcases snoc_cases q with rfl | ⟨q, f, rfl⟩
    · rfl
    · rw [goto_snoc] at h2
      cases hc : goto m q with
      | none => rw [hc] at h2; cases h2
      | some c =>
        rw [hc, Option.bind_some] at h2
        cases hf : findField m c f with
        | none => rw [hf] at h2; cases h2
        | some x => rw [hf] at h2; cases h2
  | h1 p f ih =>
    intro q c h1 h2
    rw [goto_snoc] at h1
    cases hc : goto m p with
    | none => rw [hc] at h1; cases h1
    | some c1 =>
      rw [hc, Option.bind_some] at h1
      cases hf : findField m c1 f with
      | none => rw [hf] at h1; cases h1
      | some x =>
        rw [hf] at h1
        cases h1
        obtain ⟨x1, x2, x3⟩ := findField_mem hf
        rcases snoc_cases q with rfl | ⟨q, g, rfl⟩
        · cases h2
        · rw [goto_snoc] at h2
          cases hc2 : goto m q with
          | none => rw [hc2] at h2; cases h2
          | some c2 =>
            rw [hc2, Option.bind_some] at h2
            cases hg : findField m c2 g with
            | none => rw [hg] at h2; cases h2
            | some y =>
              rw [hg] at h2
              simp only [Option.map_some, Option.some.injEq] at h2
              obtain ⟨y1, y2, y3⟩ := findField_mem hg
              have := h.inj y1 x1 h2
              subst this
              rw [x2] at y2
              subst y2
              rw [ih q c1 hc hc2, ← x3, y3]

/-- Combining types. -/
def merge : Option IncludeType → Option IncludeType → Option IncludeType
  | none, b => b
  | a, none => a
  | some a, some b => some (a.min b)

theorem merge_none (a : Option IncludeType) : merge a none = a := by cases a <;> rfl
theorem merge_assoc (a b c : Option IncludeType) : merge (merge a b) c = merge a (merge b c) := by
  rcases a with _ | a <;> rcases b with _ | b <;> rcases c with _ | c <;> try rfl
  cases a <;> cases b <;> cases c <;> rfl

/-- Adding a field to the tree. -/
theorem addField_spec {m : List IncField} (h : Tree m) {pre : List Nat} {cur : Option Nat} (hc : goto m pre = some cur)
    (f : Nat) (t : IncludeType) :
    Tree (addField m cur f t).1 ∧ goto (addField m cur f t).1 (pre ++ [f]) = some (some (addField m cur f t).2) ∧
    ∀ p g, typeAt (addField m cur f t).1 p g = merge (typeAt m p g) (if p ++ [g] = pre ++ [f] then some t else none) := by
  unfold addField
  cases hf : findField m cur f with
  | some x =>
    simp only
    obtain ⟨x1, x2, x3⟩ := findField_mem hf
    generalize hup : (fun y : IncField => if y.parent = cur ∧ y.field = f then { y with type := y.type.min t } else y) = up
    have hkeep : ∀ y, (up y).parent = y.parent ∧ (up y).field = y.field ∧ (up y).id = y.id := by
      intro y; rw [← hup]; simp only; split <;> exact ⟨rfl, rfl, rfl⟩
    have hfind : ∀ c g, findField (m.map up) c g = (findField m c g).map up := by
      intro c g
      unfold findField
      rw [List.find?_map]
      congr 2
      funext y
      simp only [Function.comp_apply, (hkeep y).1, (hkeep y).2.1]
    have hgoto : ∀ p, goto (m.map up) p = goto m p := by
      intro p
      induction p using snoc_induction with
      | h0 => rfl
      | h1 p g ih =>
        rw [goto_snoc, goto_snoc, ih]
        congr 1
        funext c
        rw [hfind, Option.map_map]
        congr 1
        funext y
        simp only [Function.comp_apply, (hkeep y).2.2]
    refine ⟨⟨?_, ?_⟩, ?_, ?_⟩
    · intro i y hy
      rw [List.getElem?_map] at hy
      cases hm : m[i]? with
      | none => rw [hm] at hy; cases hy
      | some z =>
        rw [hm] at hy
        cases hy
        rw [(hkeep z).2.2]
        exact h.id i z hm
    · intro y hy p hp
      obtain ⟨z, hz, rfl⟩ := List.mem_map.1 hy
      rw [(hkeep z).1] at hp
      rw [List.length_map]
      exact h.parent z hz p hp
    · rw [hgoto, goto_snoc, hc, Option.bind_some, hf]; rfl
    · intro p g
      unfold typeAt
      rw [hgoto]
      cases hp : goto m p with
      | none =>
        have hne : ¬ p ++ [g] = pre ++ [f] := by
          intro he
          obtain ⟨rfl, _⟩ := List.append_inj' he rfl
          rw [hp] at hc; cases hc
        rw [if_neg hne]; rfl
      | some c =>
        simp only [Option.bind_some, hfind, Option.map_map]
        by_cases he : p ++ [g] = pre ++ [f]
        · obtain ⟨rfl, hg⟩ := List.append_inj' he rfl
          cases hg
          rw [hp] at hc
          cases hc
          rw [if_pos rfl, hf]
          simp only [Option.map_some, Function.comp_apply, merge, ← hup, x2, x3, and_self, if_true]
        · rw [if_neg he, merge_none]
          cases hg : findField m c g with
          | none => rfl
          | some y =>
            obtain ⟨y1, y2, y3⟩ := findField_mem hg
            simp only [Option.map_some, Function.comp_apply, ← hup]
            rw [if_neg]
            rintro ⟨z1, z2⟩
            rw [y2] at z1
            subst z1
            rw [y3] at z2
            subst z2
            exact he (by rw [goto_inj h p pre c hp hc])
  | none =>
    simp only
    generalize hx : (⟨cur, f, m.length, t⟩ : IncField) = x
    have hcur : ∀ i, cur = some i → i < m.length := by
      intro i hi; subst hi; exact goto_some h hc
    have hfind : ∀ c g, findField (m ++ [x]) c g = if c = cur ∧ g = f then some x else findField m c g := by
      intro c g
      by_cases he : c = cur ∧ g = f
      · obtain ⟨rfl, rfl⟩ := he
        rw [if_pos ⟨rfl, rfl⟩]
        unfold findField at hf ⊢
        rw [List.find?_append, hf]
        simp [← hx]
      · rw [if_neg he]
        unfold findField
        rw [List.find?_append]
        have : List.find? (fun f => decide (f.parent = c ∧ f.field = g)) [x] = none := by
          rw [List.find?_cons_of_neg (by rw [← hx]; simp only [decide_eq_true_eq]; rintro ⟨rfl, rfl⟩; exact he ⟨rfl, rfl⟩)]
          rfl
        rw [this, Option.or_none]
    have hleaf : ∀ g, findField m (some m.length) g = none := by
      intro g
      cases hg : findField m (some m.length) g with
      | none => rfl
      | some y =>
        obtain ⟨y1, y2, _⟩ := findField_mem hg
        have := h.parent y y1 _ y2
        omega
    have hpre : goto m (pre ++ [f]) = none := by rw [goto_snoc, hc, Option.bind_some, hf]; rfl
    have hgoto : ∀ p, goto (m ++ [x]) p = if p = pre ++ [f] then some (some m.length) else goto m p := by
      intro p
      induction p using snoc_induction with
      | h0 => rw [if_neg (by simp)]; rfl
      | h1 p g ih =>
        rw [goto_snoc, ih]
        by_cases hp : p = pre ++ [f]
        · rw [if_pos hp, Option.bind_some, hfind, if_neg (by
            rintro ⟨hh, _⟩
            have := hcur m.length hh.symm
            omega), hleaf, if_neg (by rw [hp]; simp), goto_snoc, hp, hpre]; rfl
        · rw [if_neg hp]
          by_cases he : p ++ [g] = pre ++ [f]
          · rw [if_pos he]
            obtain ⟨rfl, hg⟩ := List.append_inj' he rfl
            cases hg
            rw [hc, Option.bind_some, hfind, if_pos ⟨rfl, rfl⟩, ← hx]; rfl
          · rw [if_neg he, goto_snoc]
            cases hpc : goto m p with
            | none => rfl
            | some c =>
              rw [Option.bind_some, Option.bind_some, hfind, if_neg]
              rintro ⟨rfl, rfl⟩
              exact he (by rw [goto_inj h p pre c hpc hc])
    refine ⟨⟨?_, ?_⟩, ?_, ?_⟩
    · intro i y hy
      by_cases hi : i < m.length
      · rw [List.getElem?_append_left hi] at hy
        exact h.id i y hy
      · rw [List.getElem?_append_right (by omega)] at hy
        have : i = m.length := by
          have := (List.getElem?_eq_some_iff.1 hy).1
          simp at this; omega
        subst this
        simp at hy
        rw [← hy, ← hx]
    · intro y hy p hp
      rw [List.length_append, List.length_singleton]
      rcases List.mem_append.1 hy with hy | hy
      · have := h.parent y hy p hp; omega
      · rw [List.mem_singleton] at hy
        subst hy
        rw [← hx] at hp
        have := hcur p hp
        omega
    · rw [hgoto, if_pos rfl]
    · intro p g
      unfold typeAt
      rw [hgoto]
      by_cases hp : p = pre ++ [f]
      · subst hp
        rw [if_pos rfl, hpre, Option.bind_some, hfind, if_neg (by
          rintro ⟨hh, _⟩
          have := hcur m.length hh.symm
          omega), hleaf, if_neg (by simp)]
        rfl
      · rw [if_neg hp]
        cases hpc : goto m p with
        | none =>
          have hne : ¬ p ++ [g] = pre ++ [f] := by
            intro he
            obtain ⟨rfl, _⟩ := List.append_inj' he rfl
            rw [hpc] at hc; cases hc
          rw [if_neg hne]; rfl
        | some c =>
          simp only [Option.bind_some, hfind]
          by_cases he : p ++ [g] = pre ++ [f]
          · obtain ⟨rfl, hg⟩ := List.append_inj' he rfl
            cases hg
            rw [hpc] at hc
            cases hc
            rw [if_pos ⟨rfl, rfl⟩, if_pos rfl, hf, ← hx]; rfl
          · rw [if_neg he, merge_none, if_neg]
            rintro ⟨rfl, rfl⟩
            exact he (by rw [goto_inj h p pre c hpc hc])

/-- What a path says about the field at `q`. -/
def says (existenceOnly : Bool) (path q : List Nat) : Option IncludeType :=
  if q = path then some (if existenceOnly then .existence else .fully) else if q <+: path then some .child else none

theorem addPath_spec (ex : Bool) : ∀ (path : List Nat) {m : List IncField}, Tree m → ∀ {pre : List Nat} {cur : Option Nat},
    goto m pre = some cur → 0 ∉ path →
    ∃ m', addPath ex m cur path = some m' ∧ Tree m' ∧
      ∀ p g, typeAt m' p g = merge (typeAt m p g)
        (if pre.length < (p ++ [g]).length then says ex (pre ++ path) (p ++ [g]) else none) := by
  intro path
  induction path with
  | nil =>
    intro m h pre cur hc _
    refine ⟨m, rfl, h, ?_⟩
    intro p g
    rw [List.append_nil]
    have : (if pre.length < (p ++ [g]).length then says ex pre (p ++ [g]) else none) = none := by
      split
      · rename_i hl
        unfold says
        rw [if_neg (by intro he; rw [he] at hl; omega), if_neg (by intro he; have := he.length_le; omega)]
      · rfl
    rw [this, merge_none]
  | cons f path ih =>
    intro m h pre cur hc h0
    simp only [List.mem_cons, not_or] at h0
    unfold addPath
    rw [if_neg (fun h => h0.1 h.symm)]
    simp only
    generalize ht : (if path = [] then (if ex = true then IncludeType.existence else .fully) else IncludeType.child) = t
    obtain ⟨a1, a2, a3⟩ := addField_spec h hc f t
    obtain ⟨m', b1, b2, b3⟩ := ih a1 a2 h0.2
    refine ⟨m', b1, b2, ?_⟩
    intro p g
    rw [b3, a3, merge_assoc]
    congr 1
    generalize p ++ [g] = q
    rw [List.append_assoc, List.singleton_append, List.length_append, List.length_singleton]
    by_cases hq : q = pre ++ [f]
    · rw [if_pos hq, if_neg (by rw [hq]; simp), merge_none, if_pos (by rw [hq]; simp), ← ht]
      unfold says
      by_cases hp : path = []
      · subst hp; subst hq; simp only [if_true]
      · rw [if_neg hp, if_neg (by rw [hq]; simp; exact fun h => hp h), if_pos (by rw [hq]; exact ⟨path, by simp⟩)]
    · rw [if_neg hq]
      show (if pre.length + 1 < q.length then says ex (pre ++ f :: path) q else none) = _
      by_cases hl : pre.length < q.length
      · rw [if_pos hl]
        by_cases hl1 : pre.length + 1 < q.length
        · rw [if_pos hl1]
        · rw [if_neg hl1]
          have hnp : ¬ q <+: pre ++ f :: path := by
            intro hpf
            apply hq
            have hpf2 : pre ++ [f] <+: pre ++ f :: path := ⟨path, by simp⟩
            have := List.prefix_of_prefix_length_le hpf hpf2 (by simp; omega)
            exact this.eq_of_length (by simp; omega)
          unfold says
          rw [if_neg (fun he => hnp (by rw [he]; exact List.prefix_refl _)), if_neg hnp]
      · rw [if_neg hl, if_neg (by omega)]



/-! ## All paths -/

/-- What one path of the projection says about the field at `q`. -/
def saysOne (f q : List Nat) : Option IncludeType :=
  if f.getLast? = some 0 then says true f.dropLast q else says false f q

/-- What the projection says about the field at `q`. -/
def saysAll : List (List Nat) → List Nat → Option IncludeType
  | [], _ => none
  | f :: fs, q => merge (saysOne f q) (saysAll fs q)

/-- Existence only is allowed only at the end of a path. -/
def GoodPath (f : List Nat) : Prop := 0 ∉ f.dropLast

theorem getLastD_eq {f : List Nat} (h : f ≠ []) : f.getLastD 1 = 0 ↔ f.getLast? = some 0 := by
  rw [List.getLast?_eq_some_getLast h, List.getLastD_eq_getLast?, List.getLast?_eq_some_getLast h]
  simp

theorem parseProjection_spec : ∀ (F : List (List Nat)) {m : List IncField}, Tree m →
    (∀ f ∈ F, f ≠ [] ∧ GoodPath f) →
    ∃ m', parseProjection m F = some (some m') ∧ Tree m' ∧
      ∀ p g, typeAt m' p g = merge (typeAt m p g) (saysAll F (p ++ [g]))
  | [], m, h, _ => ⟨m, rfl, h, fun p g => by rw [saysAll, merge_none]⟩
  | f :: F, m, h, hF => by
    obtain ⟨h1, h2⟩ := hF f List.mem_cons_self
    have hF' : ∀ f ∈ F, f ≠ [] ∧ GoodPath f := fun x hx => hF x (List.mem_cons_of_mem _ hx)
    unfold parseProjection
    rw [if_neg h1]
    have hpos : ∀ (p : List Nat) (g : Nat) , ([] : List Nat).length < (p ++ [g]).length := by intro p g; simp
    by_cases h0 : f.getLast? = some 0
    · rw [if_pos ((getLastD_eq h1).2 h0)]
      by_cases hl : f.length = 1
      · rw [if_pos hl]
        obtain ⟨m', a1, a2, a3⟩ := parseProjection_spec F h hF'
        refine ⟨m', a1, a2, ?_⟩
        intro p g
        rw [a3, saysAll]
        have : saysOne f (p ++ [g]) = none := by
          unfold saysOne
          rw [if_pos h0]
          have : f.dropLast = [] := List.eq_nil_of_length_eq_zero (by rw [List.length_dropLast]; omega)
          rw [this]
          unfold says
          rw [if_neg (by simp), if_neg (by simp)]
        rw [this]; rfl
      · rw [if_neg hl]
        obtain ⟨m1, b1, b2, b3⟩ := addPath_spec true f.dropLast h (pre := []) (cur := none) rfl h2
        rw [b1]
        obtain ⟨m', a1, a2, a3⟩ := parseProjection_spec F b2 hF'
        refine ⟨m', a1, a2, ?_⟩
        intro p g
        rw [a3, b3, if_pos (hpos p g), merge_assoc, saysAll, saysOne, if_pos h0, List.nil_append]
    · rw [if_neg (fun hh => h0 ((getLastD_eq h1).1 hh))]
      obtain ⟨m1, b1, b2, b3⟩ := addPath_spec false f h (pre := []) (cur := none) rfl (by
        intro hm
        have e := List.dropLast_concat_getLast h1
        rw [← e] at hm
        rcases List.mem_append.1 hm with hm | hm
        · exact h2 hm
        · rw [List.mem_singleton] at hm
          exact h0 (by rw [List.getLast?_eq_some_getLast h1, ← hm]))
      rw [b1]
      obtain ⟨m', a1, a2, a3⟩ := parseProjection_spec F b2 hF'
      refine ⟨m', a1, a2, ?_⟩
      intro p g
      rw [a3, b3, if_pos (hpos p g), merge_assoc, saysAll, saysOne, if_neg h0, List.nil_append]

/-- A path with existence only inside. -/
theorem addPath_bad (ex : Bool) : ∀ (path : List Nat) (m : List IncField) (cur : Option Nat), 0 ∈ path →
    addPath ex m cur path = none
  | f :: path, m, cur, h => by
    unfold addPath
    split
    · rfl
    · rename_i hf
      exact addPath_bad ex path _ _ (by
        rcases List.mem_cons.1 h with h | h
        · exact absurd h.symm hf
        · exact h)

/-- A projection with a bad path is rejected. -/
theorem parseProjection_bad_append : ∀ (F G : List (List Nat)) (m : List IncField), [] ∉ F → (∃ f ∈ F, ¬ GoodPath f) →
    parseProjection m (F ++ G) = none
  | f :: F, G, m, hn, hb => by
    have h1 : f ≠ [] := fun h => hn (h ▸ List.mem_cons_self)
    have hrest : GoodPath f → ∀ m, parseProjection m (F ++ G) = none := by
      intro hg m
      obtain ⟨x, hx, hxb⟩ := hb
      rcases List.mem_cons.1 hx with rfl | hx
      · exact absurd hg hxb
      · exact parseProjection_bad_append F G m (fun h => hn (List.mem_cons_of_mem _ h)) ⟨x, hx, hxb⟩
    rw [List.cons_append]
    unfold parseProjection
    rw [if_neg h1]
    by_cases hg : GoodPath f
    · split
      · split
        · exact hrest hg m
        · split
          · rfl
          · exact hrest hg _
      · split
        · rfl
        · exact hrest hg _
    · have h0 : 0 ∈ f.dropLast := Decidable.byContradiction hg
      split
      · split
        · rename_i hl
          rw [List.eq_nil_of_length_eq_zero (l := f.dropLast) (by rw [List.length_dropLast]; omega)] at h0
          cases h0
        · rw [addPath_bad _ _ _ _ h0]
      · rw [addPath_bad _ _ _ _ (List.dropLast_subset _ h0)]

theorem parseProjection_bad (F : List (List Nat)) (m : List IncField) (hn : [] ∉ F) (hb : ∃ f ∈ F, ¬ GoodPath f) :
    parseProjection m F = none := by
  have := parseProjection_bad_append F [] m hn hb
  rwa [List.append_nil] at this

theorem addPath_total (ex : Bool) : ∀ (path : List Nat) (m : List IncField) (cur : Option Nat), 0 ∉ path →
    ∃ m', addPath ex m cur path = some m'
  | [], m, cur, _ => ⟨m, rfl⟩
  | f :: path, m, cur, h => by
    simp only [List.mem_cons, not_or] at h
    unfold addPath
    rw [if_neg (fun hh => h.1 hh.symm)]
    exact addPath_total ex path _ _ h.2

theorem good_not_mem {f : List Nat} (h : GoodPath f) (h0 : ¬ f.getLast? = some 0) : 0 ∉ f := by
  intro hm
  by_cases h1 : f = []
  · subst h1; cases hm
  · rw [← List.dropLast_concat_getLast h1] at hm
    rcases List.mem_append.1 hm with hm | hm
    · exact h hm
    · rw [List.mem_singleton] at hm
      exact h0 (by rw [List.getLast?_eq_some_getLast h1, ← hm])

/-- A projection with the empty path includes everything. -/
theorem parseProjection_all : ∀ (F G : List (List Nat)) (m : List IncField), (∀ f ∈ F, GoodPath f) →
    parseProjection m (F ++ [] :: G) = some none
  | [], G, m, _ => rfl
  | f :: F, G, m, h => by
    have hF : ∀ f ∈ F, GoodPath f := fun x hx => h x (List.mem_cons_of_mem _ hx)
    have h2 := h f List.mem_cons_self
    rw [List.cons_append]
    unfold parseProjection
    by_cases h1 : f = []
    · rw [if_pos h1]
    · rw [if_neg h1]
      split
      · split
        · exact parseProjection_all F G m hF
        · obtain ⟨m', hm⟩ := addPath_total true f.dropLast m none h2
          rw [hm]
          exact parseProjection_all F G m' hF
      · rename_i h0
        obtain ⟨m', hm⟩ := addPath_total false f m none (good_not_mem h2 (fun hh => h0 ((getLastD_eq h1).2 hh)))
        rw [hm]
        exact parseProjection_all F G m' hF

/-! ## What the paths say -/

theorem fullPaths_cons_pos {f : List Nat} (F : List (List Nat)) (h : f.getLast? = some 0) :
    fullPaths (f :: F) = fullPaths F ∧ existencePaths (f :: F) = f.dropLast :: existencePaths F := by
  unfold fullPaths existencePaths
  constructor
  · rw [List.filter_cons_of_neg (by simp [h])]
  · rw [List.filter_cons_of_pos (by simp [h]), List.map_cons]

theorem fullPaths_cons_neg {f : List Nat} (F : List (List Nat)) (h : ¬ f.getLast? = some 0) :
    fullPaths (f :: F) = f :: fullPaths F ∧ existencePaths (f :: F) = existencePaths F := by
  unfold fullPaths existencePaths
  constructor
  · rw [List.filter_cons_of_pos (by simpa using h)]
  · rw [List.filter_cons_of_neg (by simpa using h)]

/-- Whether some full path is `q`. -/
def isFull (F : List (List Nat)) (q : List Nat) : Prop := q ∈ fullPaths F
/-- Whether some path leads inside the field at `q`. -/
def isInner (F : List (List Nat)) (q : List Nat) : Prop := ∃ f ∈ fullPaths F ++ existencePaths F, q <+: f ∧ q ≠ f

theorem merge_cases (a b : Option IncludeType) :
    (merge a b = some .fully ↔ a = some .fully ∨ b = some .fully) ∧
    ((merge a b = some .fully ∨ merge a b = some .child) ↔
      (a = some .fully ∨ a = some .child) ∨ (b = some .fully ∨ b = some .child)) ∧
    (merge a b ≠ none ↔ a ≠ none ∨ b ≠ none) := by
  rcases a with _ | a <;> rcases b with _ | b <;> try (cases a) <;> try (cases b)
  all_goals simp [merge, IncludeType.min]

/-- The type of a field, by threshold. -/
theorem saysAll_spec (q : List Nat) : ∀ F : List (List Nat),
    (saysAll F q = some .fully ↔ q ∈ fullPaths F) ∧
    ((saysAll F q = some .fully ∨ saysAll F q = some .child) ↔ q ∈ fullPaths F ∨ isInner F q) ∧
    (saysAll F q ≠ none ↔ q ∈ fullPaths F ∨ isInner F q ∨ q ∈ existencePaths F)
  | [] => by simp [saysAll, fullPaths, existencePaths, isInner]
  | f :: F => by
    obtain ⟨i1, i2, i3⟩ := saysAll_spec q F
    obtain ⟨m1, m2, m3⟩ := merge_cases (saysOne f q) (saysAll F q)
    rw [saysAll]
    by_cases h : f.getLast? = some 0
    · obtain ⟨e1, e2⟩ := fullPaths_cons_pos F h
      have hin : isInner (f :: F) q ↔ (q <+: f.dropLast ∧ q ≠ f.dropLast) ∨ isInner F q := by
        unfold isInner
        rw [e1, e2]
        constructor
        · rintro ⟨x, hx, hq⟩
          simp only [List.mem_append, List.mem_cons] at hx
          rcases hx with hx | rfl | hx
          · exact Or.inr ⟨x, by simp [hx], hq⟩
          · exact Or.inl hq
          · exact Or.inr ⟨x, by simp [hx], hq⟩
        · rintro (hq | ⟨x, hx, hq⟩)
          · exact ⟨_, by simp, hq⟩
          · simp only [List.mem_append] at hx
            refine ⟨x, ?_, hq⟩
            simp only [List.mem_append, List.mem_cons]
            rcases hx with hx | hx
            · exact Or.inl hx
            · exact Or.inr (Or.inr hx)
      have hs : saysOne f q = says true f.dropLast q := by unfold saysOne; rw [if_pos h]
      rw [m3, m2, m1, i3, i2, i1, hin, e1, e2, hs]
      unfold says
      by_cases hq : q = f.dropLast
      · simp [hq]
      · by_cases hp : q <+: f.dropLast <;> simp [hq, hp]
    · obtain ⟨e1, e2⟩ := fullPaths_cons_neg F h
      have hin : isInner (f :: F) q ↔ (q <+: f ∧ q ≠ f) ∨ isInner F q := by
        unfold isInner
        rw [e1, e2]
        constructor
        · rintro ⟨x, hx, hq⟩
          simp only [List.mem_append, List.mem_cons] at hx
          rcases hx with (rfl | hx) | hx
          · exact Or.inl hq
          · exact Or.inr ⟨x, by simp [hx], hq⟩
          · exact Or.inr ⟨x, by simp [hx], hq⟩
        · rintro (hq | ⟨x, hx, hq⟩)
          · exact ⟨_, by simp, hq⟩
          · simp only [List.mem_append] at hx
            refine ⟨x, ?_, hq⟩
            simp only [List.mem_append, List.mem_cons]
            rcases hx with hx | hx
            · exact Or.inl (Or.inr hx)
            · exact Or.inr hx
      have hs : saysOne f q = says false f q := by unfold saysOne; rw [if_neg h]
      rw [m3, m2, m1, i3, i2, i1, hin, e1, e2, hs]
      unfold says
      by_cases hq : q = f
      · simp [hq]
      · by_cases hp : q <+: f <;> simp [hq, hp]

/-- The inclusion in terms of paths. -/
theorem inclusion_keep (F : List (List Nat)) (q : List Nat) :
    inclusion F q = .keep ↔ (∃ f ∈ fullPaths F, f <+: q) ∨ isInner F q := by
  unfold inclusion isInner
  simp only [List.any_eq_true, Bool.and_eq_true, List.isPrefixOf_iff_prefix, bne_iff_ne, beq_iff_eq]
  split
  · rename_i h; simp [h]
  · rename_i h
    split
    · rename_i h2; simp only [h2, or_true]
    · rename_i h2
      simp only [h, h2, or_self, iff_false]
      split <;> simp

theorem inclusion_remove (F : List (List Nat)) (q : List Nat) :
    inclusion F q = .remove ↔ ¬ ((∃ f ∈ fullPaths F, f <+: q) ∨ isInner F q ∨ q ∈ existencePaths F) := by
  unfold inclusion isInner
  simp only [List.any_eq_true, Bool.and_eq_true, List.isPrefixOf_iff_prefix, bne_iff_ne, beq_iff_eq]
  split
  · rename_i h; simp [h]
  · rename_i h
    split
    · rename_i h2; simp only [h2, or_true, true_or, not_true]; simp
    · rename_i h2
      simp only [h, h2, false_or]
      split
      · rename_i h3; simpa using h3
      · rename_i h3; simpa using h3

/-! ## The walk -/

/-- The loop over the stack, on field numbers. -/
def walk (m : List IncField) (id : Option Nat) : List Nat → Included × Option Nat
  | [] => (.existence, id)
  | x :: rest =>
    match findField m id x with
    | none => (.no, id)
    | some f => if f.type = .fully then (.yes, id) else walk m (some f.id) rest

/-- Whether the field at the path given by the numbers on the stack and a number is included. -/
def walkLast (m : List IncField) (id : Option Nat) (nums : List Nat) (last : Nat) : Included :=
  if (walk m id nums).1 = .existence then
    match findField m (walk m id nums).2 last with
    | none => .no
    | some f => if f.type = .fully ∨ f.type = .child then .yes else .existence
  else (walk m id nums).1

/-- The tree answers what the projection says. -/
structure Answers (m : List IncField) (F : List (List Nat)) : Prop where
  tree : Tree m
  type : ∀ p g, typeAt m p g = saysAll F (p ++ [g])

theorem parseProjection_answers (F : List (List Nat)) (hF : ∀ f ∈ F, f ≠ [] ∧ GoodPath f) :
    ∃ m, parseProjection [] F = some (some m) ∧ Answers m F := by
  obtain ⟨m, h1, h2, h3⟩ := parseProjection_spec F (m := []) ⟨by simp, by simp⟩ hF
  refine ⟨m, h1, h2, fun p g => ?_⟩
  rw [h3]
  have : typeAt [] p g = none := by
    unfold typeAt
    cases goto [] p with
    | none => rfl
    | some c => rfl
  rw [this]; rfl

theorem full_prefix_snoc {F : List (List Nat)} {pre : List Nat} {x : Nat} (h : ∀ f ∈ fullPaths F, ¬ f <+: pre)
    (hx : pre ++ [x] ∉ fullPaths F) : ∀ f ∈ fullPaths F, ¬ f <+: pre ++ [x] := by
  intro f hf hp
  rcases List.prefix_concat_iff.1 hp with rfl | hp
  · exact hx hf
  · exact h f hf hp

/-- Nothing is said about what is inside a field about which nothing is said. -/
theorem inclusion_below {F : List (List Nat)} {q : List Nat} (h : ∀ f ∈ fullPaths F, ¬ f <+: q)
    (h2 : ¬ isInner F q) (rest : List Nat) (hr : rest ≠ [] ∨ q ∉ existencePaths F) : inclusion F (q ++ rest) = .remove := by
  rw [inclusion_remove]
  have hin : ∀ f ∈ fullPaths F ++ existencePaths F, q <+: f → q = f :=
    fun f hf hp => Decidable.byContradiction fun hne => h2 ⟨f, hf, hp, hne⟩
  rintro (⟨f, hf, hp⟩ | ⟨f, hf, hp, hne⟩ | hf)
  · rcases List.prefix_or_prefix_of_prefix hp (List.prefix_append q rest) with h3 | h3
    · exact h f hf h3
    · have := hin f (List.mem_append_left _ hf) h3
      subst this
      exact h q hf (List.prefix_refl _)
  · have := hin f hf ((List.prefix_append q rest).trans hp)
    subst this
    have : rest = [] := by
      have := hp.length_le
      rw [List.length_append] at this
      exact List.eq_nil_of_length_eq_zero (by omega)
    subst this
    exact hne (List.append_nil _)
  · have := hin _ (List.mem_append_right _ hf) (List.prefix_append q rest)
    have hre : rest = [] := by
      have := congrArg List.length this
      rw [List.length_append] at this
      exact List.eq_nil_of_length_eq_zero (by omega)
    subst hre
    rw [List.append_nil] at hf
    rcases hr with hr | hr
    · exact hr rfl
    · exact hr hf

theorem walkLast_spec {m : List IncField} {F : List (List Nat)} (ha : Answers m F) (last : Nat) :
    ∀ (nums pre : List Nat) (c : Option Nat), goto m pre = some c → (∀ f ∈ fullPaths F, ¬ f <+: pre) →
    walkLast m c nums last = ofInclusion (inclusion F (pre ++ nums ++ [last])) := by
  intro nums
  induction nums with
  | nil =>
    intro pre c hc hn
    unfold walkLast
    simp only [walk, if_true]
    rw [List.append_nil]
    have ht := ha.type pre last
    unfold typeAt at ht
    rw [hc, Option.bind_some] at ht
    obtain ⟨s1, s2, s3⟩ := saysAll_spec (pre ++ [last]) F
    rw [← ht] at s1 s2 s3
    have hfull : (∃ f ∈ fullPaths F, f <+: pre ++ [last]) ↔ pre ++ [last] ∈ fullPaths F := by
      constructor
      · rintro ⟨f, hf, hp⟩
        exact Decidable.byContradiction fun hx => full_prefix_snoc hn hx f hf hp
      · exact fun h => ⟨_, h, List.prefix_refl _⟩
    have k1 := inclusion_keep F (pre ++ [last])
    have k2 := inclusion_remove F (pre ++ [last])
    rw [hfull] at k1 k2
    rw [← s2] at k1
    rw [← s3] at k2
    cases hf : findField m c last with
    | none =>
      rw [hf] at k2
      simp only
      rw [k2.2 (by simp)]; rfl
    | some x =>
      rw [hf] at k1 k2
      simp only [Option.map_some, Option.some.injEq] at k1 k2
      simp only
      split
      · rename_i ht; rw [k1.2 ht]; rfl
      · rename_i ht
        have e1 : inclusion F (pre ++ [last]) ≠ .keep := fun h => ht (k1.1 h)
        have e2 : inclusion F (pre ++ [last]) ≠ .remove := fun h => k2.1 h (by simp)
        cases hi : inclusion F (pre ++ [last]) with
        | keep => exact absurd hi e1
        | remove => exact absurd hi e2
        | clear => rfl
  | cons x nums ih =>
    intro pre c hc hn
    have ht := ha.type pre x
    have hg := goto_snoc m pre x
    unfold typeAt at ht
    rw [hc, Option.bind_some] at ht hg
    obtain ⟨s1, s2, s3⟩ := saysAll_spec (pre ++ [x]) F
    rw [← ht] at s1 s2 s3
    rw [show pre ++ x :: nums ++ [last] = pre ++ [x] ++ nums ++ [last] by simp]
    cases hf : findField m c x with
    | none =>
      unfold walkLast walk
      rw [hf] at s1 s2 s3 ⊢
      simp only [reduceCtorEq, if_false]
      simp only [Option.map_none, ne_eq, not_true_eq_false, false_iff, not_or] at s3
      rw [List.append_assoc (pre ++ [x]), inclusion_below (full_prefix_snoc hn s3.1) s3.2.1 _ (Or.inr s3.2.2)]; rfl
    | some f =>
      rw [hf] at s1 s2 s3 hg
      by_cases hfu : f.type = .fully
      · unfold walkLast walk
        rw [hf]
        simp only [hfu, if_true, reduceCtorEq, if_false]
        rw [(inclusion_keep F _).2 (Or.inl ⟨_, s1.1 (by simp [hfu]), by rw [List.append_assoc]; exact List.prefix_append _ _⟩)]; rfl
      · have hw : walkLast m c (x :: nums) last = walkLast m (some f.id) nums last := by
          unfold walkLast
          rw [show walk m c (x :: nums) = walk m (some f.id) nums by rw [walk, hf]; simp only [hfu, if_false]]
        rw [hw]
        exact ih (pre ++ [x]) (some f.id) hg (full_prefix_snoc hn (fun h => hfu (by simpa using s1.2 h)))

theorem walk_spec {m : List IncField} {F : List (List Nat)} (ha : Answers m F) :
    ∀ (nums pre : List Nat) (c : Option Nat), nums ≠ [] → goto m pre = some c → (∀ f ∈ fullPaths F, ¬ f <+: pre) →
    ((walk m c nums).1 = .no ↔ inclusion F (pre ++ nums) = .remove) := by
  intro nums
  induction nums with
  | nil => intro pre c h; exact absurd rfl h
  | cons x nums ih =>
    intro pre c _ hc hn
    have ht := ha.type pre x
    have hg := goto_snoc m pre x
    unfold typeAt at ht
    rw [hc, Option.bind_some] at ht hg
    obtain ⟨s1, s2, s3⟩ := saysAll_spec (pre ++ [x]) F
    rw [← ht] at s1 s2 s3
    rw [show pre ++ x :: nums = pre ++ [x] ++ nums by simp]
    cases hf : findField m c x with
    | none =>
      unfold walk
      rw [hf] at s1 s2 s3 ⊢
      simp only [Option.map_none, ne_eq, not_true_eq_false, false_iff, not_or] at s3
      rw [inclusion_below (full_prefix_snoc hn s3.1) s3.2.1 _ (Or.inr s3.2.2)]
      simp
    | some f =>
      rw [hf] at s1 s2 s3 hg
      by_cases hfu : f.type = .fully
      · unfold walk
        rw [hf]
        simp only [hfu, if_true]
        rw [(inclusion_keep F _).2 (Or.inl ⟨_, s1.1 (by simp [hfu]), List.prefix_append _ _⟩)]
        simp
      · have hw : walk m c (x :: nums) = walk m (some f.id) nums := by rw [walk, hf]; simp only [hfu, if_false]
        rw [hw]
        have hn' := full_prefix_snoc hn (fun h => hfu (by simpa using s1.2 h))
        by_cases hnil : nums = []
        · subst hnil
          rw [List.append_nil]
          simp only [walk, reduceCtorEq, false_iff]
          rw [inclusion_remove]
          intro hh
          apply hh
          have := s3.1 (by simp)
          rcases this with h | h | h
          · exact Or.inl ⟨_, h, List.prefix_refl _⟩
          · exact Or.inr (Or.inl h)
          · exact Or.inr (Or.inr h)
        · exact ih (pre ++ [x]) (some f.id) hnil hg hn'

theorem no_full_nil {F : List (List Nat)} (hF : ∀ f ∈ F, f ≠ []) : ∀ f ∈ fullPaths F, ¬ f <+: [] := by
  intro f hf hp
  exact hF f (List.mem_filter.1 hf).1 (List.prefix_nil.1 hp)

/-- Removed fields have nothing inside. -/
theorem inclusion_remove_append {F : List (List Nat)} {q : List Nat} (h : inclusion F q = .remove) (rest : List Nat) :
    inclusion F (q ++ rest) = .remove := by
  rw [inclusion_remove] at h
  simp only [not_or] at h
  exact inclusion_below (fun f hf hp => h.1 ⟨f, hf, hp⟩) h.2.1 _ (Or.inr h.2.2)

end Riegeli.Tr
