import Verif.CleanerProofs
import Verif.PoolProofs

/-!
# Proofs about pools used by many threads (C48, C49)
-/

namespace Riegeli.Pool

variable {κ : Type} [DecidableEq κ] {I : Impl κ Nat}

/-! ## Lists -/

theorem count_flatMap_set {α : Type} (f : α → List Nat) (b : Nat) :
    ∀ (l : List α) (i : Nat) (x y : α), l[i]? = some x →
      List.count b ((l.set i y).flatMap f) + List.count b (f x) =
        List.count b (l.flatMap f) + List.count b (f y)
  | [], i, x, y, h => by simp at h
  | a :: l, 0, x, y, h => by
    simp only [List.getElem?_cons_zero, Option.some.injEq] at h
    subst h
    simp only [List.set_cons_zero, List.flatMap_cons, List.count_append]
    omega
  | a :: l, i + 1, x, y, h => by
    have := count_flatMap_set f b l i x y (by simpa using h)
    simp only [List.set_cons_succ, List.flatMap_cons, List.count_append]
    omega

/-- The idle objects of a pool. -/
def idleAt (xss : List (Idle κ Nat)) (p : Nat) : Idle κ Nat := (xss[p]?).getD []

theorem idleAt_set {xss : List (Idle κ Nat)} {p r : Nat} {xs : Idle κ Nat}
    (hp : p < xss.length) :
    idleAt (xss.set p xs) r = if r = p then xs else idleAt xss r := by
  simp only [idleAt, List.getElem?_set]
  by_cases h : p = r
  · subst h; simp [hp]
  · have : ¬ r = p := fun hh => h hh.symm
    simp [h, this]

/-- The objects themselves. -/
def objs (xs : Idle κ Nat) : List Nat := xs.map (·.2.1)

/-! ## The specification's functions -/

omit [DecidableEq κ] in
theorem takeNewest_spec [DecidableEq κ] (k : κ) : ∀ (xs : Idle κ Nat),
    (takeNewest k xs = none) ∨
      ∃ b rest, takeNewest k xs = some (b, rest) ∧ rest.Sublist xs ∧
        ∀ a, List.count a (objs xs) = List.count a (objs rest) + List.count a [b]
  | [] => .inl rfl
  | x :: xs => by
    rcases takeNewest_spec k xs with h | ⟨b, rest, h, hs, hc⟩
    · by_cases hx : x.1 = k
      · right
        refine ⟨x.2.1, xs, by simp [takeNewest, h, hx], List.sublist_cons_self _ _, ?_⟩
        intro a
        simp only [objs, List.map_cons, List.count_cons, List.count_nil]
        omega
      · left; simp [takeNewest, h, hx]
    · right
      refine ⟨b, x :: rest, by simp [takeNewest, h], hs.cons_cons x, ?_⟩
      intro a
      have := hc a
      simp only [objs, List.map_cons, List.count_cons] at this ⊢
      omega

/-! ## Deadlines -/

/-- A deadline is not after another. -/
def dle (x y : Option Nat) : Prop := ∀ d, y = some d → ∃ d', x = some d' ∧ d' ≤ d

theorem dle_trans {x y z : Option Nat} (h1 : dle x y) (h2 : dle y z) : dle x z := by
  intro d hd
  obtain ⟨d', hd', hle⟩ := h2 d hd
  obtain ⟨d'', hd'', hle'⟩ := h1 d' hd'
  exact ⟨d'', hd'', by omega⟩

/-- What is known about a pool with the idle objects `xs`. -/
structure PoolOk (C : I.Correct) (now : Nat) (q : PoolState I.σ) (xs : Idle κ Nat) : Prop where
  repr : C.Repr q.maxSize q.state xs
  bound : xs.length ≤ q.maxSize
  closed : q.isOpen = false → xs = []
  sorted : xs.Pairwise (fun x y => dle x.2.2 y.2.2)
  young : ∀ x ∈ xs, (q.age = none ∧ x.2.2 = none) ∨
    ∃ a d, q.age = some a ∧ x.2.2 = some d ∧ d ≤ now + a

/-! ## The invariant -/

/-- The pool has not been destroyed. -/
def openAt (pools : List (PoolState I.σ)) (p : Nat) : Prop :=
  ∃ q, pools[p]? = some q ∧ q.isOpen = true

/-- The pool is registered, too. -/
def regAt (pools : List (PoolState I.σ)) (p : Nat) : Prop :=
  ∃ q, pools[p]? = some q ∧ q.isOpen = true ∧ q.registered = true

/-- What an operation in progress relies on. -/
def TaskOk (pools : List (PoolState I.σ)) : Task → Prop
  | .schedule p _ _ => regAt pools p
  | .cancel p => regAt pools p
  | .clearLock p => openAt pools p
  | .destroy _ => True
  | .done => True

/-- The objects an operation will destroy. -/
def Task.evicted : Task → List Nat
  | .schedule _ _ ev => ev
  | .destroy ev => ev
  | _ => []

/-- The objects the background thread will destroy. -/
def Bg.evicted : Bg → List Nat
  | .cleaned _ ev _ => ev
  | _ => []

/-- The pool being cleaned. -/
def Bg.target : Bg → Option Nat
  | .cleaning p _ => some p
  | .cleaned p _ _ => some p
  | .relock p => some p
  | _ => none

/-- The cleaner and the background thread. -/
structure ThreadInv (c : Cleaner) (bg : Bg) (A : List Nat) (P : List (Nat × Nat)) : Prop where
  inv : CInv c A P
  off : bg = .off ↔ c.noThread = true
  alive : P ≠ [] → bg ≠ .off
  waits : ∀ d, bg = .waiting d → c.reduced = true ∨ ∃ d', d = some d' ∧ ∀ x ∈ P, d' ≤ x.2
  target : c.current = bg.target
  targetReg : ∀ p, bg.target = some p → p ∈ A ++ P.map (·.1)

/-- Cleaning of the pool is certain to happen by the time `D`. -/
def Covered (tasks : List Task) (bg : Bg) (P : List (Nat × Nat)) (p D : Nat) : Prop :=
  (∃ d, d ≤ D ∧ (p, d) ∈ P) ∨
  (∃ d ev, d ≤ D ∧ Task.schedule p d ev ∈ tasks) ∨
  Task.clearLock p ∈ tasks ∨
  (∃ t, bg = .cleaning p t) ∨
  (∃ ev d, d ≤ D ∧ bg = .cleaned p ev (some d))

theorem Covered.mono {tasks : List Task} {bg : Bg} {P : List (Nat × Nat)} {p D D' : Nat}
    (h : Covered tasks bg P p D) (hD : D ≤ D') : Covered tasks bg P p D' := by
  rcases h with ⟨d, hd, h⟩ | ⟨d, ev, hd, h⟩ | h | h | ⟨ev, d, hd, h⟩
  · exact .inl ⟨d, by omega, h⟩
  · exact .inr (.inl ⟨d, ev, by omega, h⟩)
  · exact .inr (.inr (.inl h))
  · exact .inr (.inr (.inr (.inl h)))
  · exact .inr (.inr (.inr (.inr ⟨ev, d, by omega, h⟩)))

/-- The oldest object of each pool is covered. -/
def Cover (xss : List (Idle κ Nat)) (tasks : List Task) (bg : Bg) (P : List (Nat × Nat)) : Prop :=
  ∀ p x D, (idleAt xss p).head? = some x → x.2.2 = some D → Covered tasks bg P p D

/-- How many times an object is present. -/
def places (s : Sys I) (xss : List (Idle κ Nat)) (b : Nat) : Nat :=
  List.count b s.held + List.count b s.gone + List.count b (xss.flatMap objs) +
    List.count b (s.tasks.flatMap Task.evicted) + List.count b s.bg.evicted

structure SInv (C : I.Correct) (s : Sys I) (xss : List (Idle κ Nat)) (A : List Nat)
    (P : List (Nat × Nat)) : Prop where
  len : xss.length = s.pools.length
  ok : ∀ p q, s.pools[p]? = some q → PoolOk C s.now q (idleAt xss p)
  thread : ThreadInv s.cleaner s.bg A P
  reg : ∀ p, p ∈ A ++ P.map (·.1) ↔ regAt s.pools p
  tasks : ∀ t ∈ s.tasks, TaskOk s.pools t
  cover : Cover xss s.tasks s.bg P
  own : ∀ b, places s xss b = if b < s.made then 1 else 0

/-! ## Changing a pool -/

theorem pool?_some {s : Sys I} {p : Nat} {q : PoolState I.σ} (h : s.pool? p = some q) :
    s.pools[p]? = some q ∧ q.isOpen = true := by
  simp only [Sys.pool?, Option.bind_eq_some_iff] at h
  obtain ⟨q', hq', h⟩ := h
  split at h
  · cases h; exact ⟨hq', by assumption⟩
  · cases h

theorem pool?_of_open {s : Sys I} {p : Nat} (h : openAt s.pools p) : ∃ q, s.pool? p = some q := by
  obtain ⟨q, hq, ho⟩ := h
  exact ⟨q, by simp [Sys.pool?, hq, ho]⟩

theorem regAt.isOpen {pools : List (PoolState I.σ)} {p : Nat} (h : regAt pools p) :
    openAt pools p := let ⟨q, h1, h2, _⟩ := h; ⟨q, h1, h2⟩

theorem ok_set {C : I.Correct} {now : Nat} {pools : List (PoolState I.σ)}
    {xss : List (Idle κ Nat)} (hlen : xss.length = pools.length)
    (h : ∀ p q, pools[p]? = some q → PoolOk C now q (idleAt xss p)) {p : Nat}
    {q q' : PoolState I.σ} {xs : Idle κ Nat} (hq : pools[p]? = some q)
    (h' : PoolOk C now q' xs) :
    ∀ r q'', (pools.set p q')[r]? = some q'' → PoolOk C now q'' (idleAt (xss.set p xs) r) := by
  have hp : p < pools.length := (List.getElem?_eq_some_iff.mp hq).1
  intro r q'' hr
  rw [idleAt_set (by omega)]
  rw [List.getElem?_set] at hr
  by_cases hrp : p = r
  · subst hrp
    simp [hp] at hr
    subst hr
    simpa using h'
  · have : ¬ r = p := fun hh => hrp hh.symm
    simp only [if_neg hrp] at hr
    simp only [if_neg this]
    exact h r q'' hr

theorem openAt_set {pools : List (PoolState I.σ)} {p r : Nat} {q q' : PoolState I.σ}
    (hq : pools[p]? = some q) (ho : q.isOpen = true → q'.isOpen = true) (h : openAt pools r) :
    openAt (pools.set p q') r := by
  have hp : p < pools.length := (List.getElem?_eq_some_iff.mp hq).1
  obtain ⟨x, hx, hxo⟩ := h
  by_cases hrp : p = r
  · subst hrp
    rw [hq] at hx; cases hx
    exact ⟨q', by simp [hp], ho hxo⟩
  · exact ⟨x, by rw [List.getElem?_set]; simp [hrp, hx], hxo⟩

theorem regAt_set {pools : List (PoolState I.σ)} {p r : Nat} {q q' : PoolState I.σ}
    (hq : pools[p]? = some q) (ho : q.isOpen = true → q'.isOpen = true)
    (hr : q.registered = true → q'.registered = true) (h : regAt pools r) :
    regAt (pools.set p q') r := by
  have hp : p < pools.length := (List.getElem?_eq_some_iff.mp hq).1
  obtain ⟨x, hx, hxo, hxr⟩ := h
  by_cases hrp : p = r
  · subst hrp
    rw [hq] at hx; cases hx
    exact ⟨q', by simp [hp], ho hxo, hr hxr⟩
  · exact ⟨x, by rw [List.getElem?_set]; simp [hrp, hx], hxo, hxr⟩

theorem regAt_set_iff {pools : List (PoolState I.σ)} {p r : Nat} {q q' : PoolState I.σ}
    (hq : pools[p]? = some q) (ho : q'.isOpen = q.isOpen) (hr : q'.registered = q.registered) :
    regAt (pools.set p q') r ↔ regAt pools r := by
  have hp : p < pools.length := (List.getElem?_eq_some_iff.mp hq).1
  constructor
  · intro h
    have h2 : (pools.set p q')[p]? = some q' := by simp [hp]
    have h3 := regAt_set (q' := q) h2 (by rw [ho]; exact id) (by rw [hr]; exact id) h
    have h4 : (pools.set p q').set p q = pools := by
      rw [List.set_set]
      refine List.ext_getElem? fun i => ?_
      rw [List.getElem?_set]
      by_cases hi : p = i
      · subst hi
        have := (List.getElem?_eq_some_iff.mp hq).2
        simp [hp, this]
      · simp [hi]
    rwa [h4] at h3
  · exact regAt_set hq (by rw [ho]; exact id) (by rw [hr]; exact id)

theorem TaskOk.set {pools : List (PoolState I.σ)} {p : Nat} {q q' : PoolState I.σ} {t : Task}
    (hq : pools[p]? = some q) (ho : q.isOpen = true → q'.isOpen = true)
    (hr : q.registered = true → q'.registered = true) (h : TaskOk pools t) :
    TaskOk (pools.set p q') t := by
  cases t with
  | schedule r d ev => exact regAt_set hq ho hr h
  | cancel r => exact regAt_set hq ho hr h
  | clearLock r => exact openAt_set hq ho h
  | destroy ev => trivial
  | done => trivial

/-- Removing objects from a sorted pool leaves the oldest one covered. -/
theorem cover_sublist {xss : List (Idle κ Nat)} {tasks : List Task} {bg : Bg}
    {P : List (Nat × Nat)} (h : Cover xss tasks bg P) {p : Nat} {xs : Idle κ Nat}
    (hp : p < xss.length) (hs : (idleAt xss p).Pairwise (fun x y => dle x.2.2 y.2.2))
    (hsub : ∀ x, xs.head? = some x → x ∈ idleAt xss p) :
    Cover (xss.set p xs) tasks bg P := by
  intro r x D hx hD
  rw [idleAt_set hp] at hx
  by_cases hrp : r = p
  · subst hrp
    simp only [if_true] at hx
    have hmem := hsub x hx
    cases hxs : idleAt xss r with
    | nil => rw [hxs] at hmem; cases hmem
    | cons y ys =>
      rw [hxs] at hmem hs
      have hle : dle y.2.2 x.2.2 := by
        rcases List.mem_cons.mp hmem with rfl | hm
        · intro d hd; exact ⟨d, hd, Nat.le_refl _⟩
        · exact (List.pairwise_cons.mp hs).1 x hm
      obtain ⟨D', hD', hle'⟩ := hle D hD
      exact (h r y D' (by rw [hxs]; rfl) hD').mono hle'
  · simp only [if_neg hrp] at hx
    exact h r x D hx hD

/-! ## The steps -/

variable {C : I.Correct} {s : Sys I} {xss : List (Idle κ Nat)} {A : List Nat}
  {P : List (Nat × Nat)}

/-- There is such a state after the step. -/
def Good (C : I.Correct) : Out (Sys I) → Prop
  | .next s => ∃ xss A P, SInv C s xss A P
  | .refused => True
  | .crash => False

theorem SInv.init (C : I.Correct) : SInv C (Sys.init I) [] [] [] where
  len := rfl
  ok := by intro p q h; simp [Sys.init] at h
  thread := ⟨CInv.new, by simp [Sys.init, Cleaner.new], by simp, by simp [Sys.init], rfl,
    by simp [Sys.init, Bg.target]⟩
  reg := by intro p; simp [regAt, Sys.init]
  tasks := by intro t h; simp [Sys.init] at h
  cover := by intro p x D h; simp [idleAt] at h
  own := by intro b; simp [places, Sys.init, Bg.evicted]

theorem PoolOk.later {now : Nat} {q : PoolState I.σ} {xs : Idle κ Nat} (h : PoolOk C now q xs)
    (n : Nat) : PoolOk C (now + n) q xs where
  repr := h.repr
  bound := h.bound
  closed := h.closed
  sorted := h.sorted
  young := by
    intro x hx
    rcases h.young x hx with h | ⟨a, d, h1, h2, h3⟩
    · exact .inl h
    · exact .inr ⟨a, d, h1, h2, by omega⟩

theorem SInv.tick (h : SInv C s xss A P) (n : Nat) :
    SInv C { s with now := s.now + n } xss A P where
  len := h.len
  ok := fun p q hq => (h.ok p q hq).later n
  thread := h.thread
  reg := h.reg
  tasks := h.tasks
  cover := h.cover
  own := h.own

theorem SInv.drop (h : SInv C s xss A P) {b : Nat} (hb : b ∈ s.held) :
    SInv C { s with held := s.held.erase b, gone := s.gone ++ [b] } xss A P where
  len := h.len
  ok := h.ok
  thread := h.thread
  reg := h.reg
  tasks := h.tasks
  cover := h.cover
  own := by
    intro a
    have := h.own a
    simp only [places, List.count_append, List.count_cons, List.count_nil, List.count_erase]
      at this ⊢
    have h1 : 0 < List.count b s.held := List.count_pos_iff.mpr hb
    by_cases hab : b = a
    · subst hab; simp at this ⊢; omega
    · have : ¬ (b == a) = true := by simpa using hab
      simp only [if_neg this] at *
      omega

/-- A pool's number is new. -/
theorem SInv.fresh (h : SInv C s xss A P) : s.pools.length ∉ A ++ P.map (·.1) := by
  rw [h.reg]
  rintro ⟨q, hq, _⟩
  have := (List.getElem?_eq_some_iff.mp hq).1
  omega

theorem ThreadInv.register {c : Cleaner} {bg : Bg} (h : ThreadInv c bg A P) {p : Nat}
    (hp : p ∉ A ++ P.map (·.1)) : ThreadInv (c.register p) bg (p :: A) P where
  inv := h.inv.register hp
  off := h.off
  alive := h.alive
  waits := h.waits
  target := h.target
  targetReg := by
    intro q hq
    have := h.targetReg q hq
    simp only [List.cons_append, List.mem_cons]
    exact .inr this

theorem SInv.create (h : SInv C s xss A P) (maxSize : Nat) (age : Option Nat) (reg : Bool) :
    Good C (.next (s.create maxSize age reg)) := by
  have hget : ∀ (r : Nat) q, (s.create maxSize age reg).pools[r]? = some q →
      s.pools[r]? = some q ∨ (r = s.pools.length ∧
        q = { maxSize := maxSize, age := age, state := I.new maxSize
              registered := reg, isOpen := true }) := by
    intro r q hq
    simp only [Sys.create, List.getElem?_append] at hq
    split at hq
    · exact .inl hq
    · rename_i hr
      right
      cases hrr : r - s.pools.length with
      | zero => rw [hrr] at hq; simp at hq; exact ⟨by omega, hq.symm⟩
      | succ n => rw [hrr] at hq; simp at hq
  have hold : ∀ (r : Nat) q, s.pools[r]? = some q → (s.create maxSize age reg).pools[r]? = some q := by
    intro r q hq
    have := (List.getElem?_eq_some_iff.mp hq).1
    simp only [Sys.create]
    rw [List.getElem?_append_left this]; exact hq
  have hnew : (s.create maxSize age reg).pools[s.pools.length]? =
      some { maxSize := maxSize, age := age, state := I.new maxSize
             registered := reg, isOpen := true } := by simp [Sys.create]
  have hidle : ∀ r, idleAt (xss ++ [[]]) r = idleAt xss r := by
    intro r
    simp only [idleAt, List.getElem?_append]
    split
    · rfl
    · rename_i hr
      have : xss[r]? = none := by simpa using hr
      rw [this]
      cases hrr : r - xss.length with
      | zero => rfl
      | succ n => simp
  have hregAt : ∀ r, regAt s.pools r → regAt (s.create maxSize age reg).pools r :=
    fun r ⟨q, hq, h1⟩ => ⟨q, hold r q hq, h1⟩
  have hopenAt : ∀ r, openAt s.pools r → openAt (s.create maxSize age reg).pools r :=
    fun r ⟨q, hq, h1⟩ => ⟨q, hold r q hq, h1⟩
  refine ⟨xss ++ [[]], if reg then s.pools.length :: A else A, P, ?_⟩
  constructor
  · simp [Sys.create, h.len]
  · intro r q hq
    rw [hidle]
    rcases hget r q hq with hq | ⟨rfl, rfl⟩
    · exact h.ok r q hq
    · have : idleAt xss s.pools.length = [] := by simp [idleAt, h.len]
      rw [this]
      exact ⟨C.new _, by simp, fun _ => rfl, .nil, by simp⟩
  · cases reg with
    | false => exact h.thread
    | true => exact h.thread.register h.fresh
  · intro r
    constructor
    · intro hr
      cases reg with
      | false => exact hregAt r ((h.reg r).mp hr)
      | true =>
        simp only [if_true, List.cons_append, List.mem_cons] at hr
        rcases hr with rfl | hr
        · exact ⟨_, hnew, rfl, rfl⟩
        · exact hregAt r ((h.reg r).mp hr)
    · rintro ⟨q, hq, h1, h2⟩
      rcases hget r q hq with hq | ⟨rfl, rfl⟩
      · have := (h.reg r).mpr ⟨q, hq, h1, h2⟩
        cases reg with
        | false => exact this
        | true => simp only [if_true, List.cons_append, List.mem_cons]; exact .inr this
      · simp only at h2
        subst h2
        simp
  · intro t ht
    have := h.tasks t ht
    cases t with
    | schedule r d ev => exact hregAt r this
    | cancel r => exact hregAt r this
    | clearLock r => exact hopenAt r this
    | destroy ev => trivial
    | done => trivial
  · intro r x D hx hD
    rw [hidle] at hx
    exact h.cover r x D hx hD
  · intro b
    have := h.own b
    have e : (xss ++ [[]]).flatMap objs = xss.flatMap objs := by
      rw [List.flatMap_append, List.flatMap_cons, List.flatMap_nil]
      exact (List.append_nil _)
    simp only [places, Sys.create, e] at this ⊢
    exact this

theorem SInv.lt (h : SInv C s xss A P) {p : Nat} {q : PoolState I.σ}
    (hq : s.pools[p]? = some q) : p < xss.length ∧ xss[p]? = some (idleAt xss p) := by
  have hp : p < xss.length := by rw [h.len]; exact (List.getElem?_eq_some_iff.mp hq).1
  exact ⟨hp, by simp [idleAt, hp]⟩

theorem SInv.get (h : SInv C s xss A P) {p : Nat} (k : κ) {q : PoolState I.σ}
    (hq : s.pool? p = some q) : Good C (.ofOption (s.get p k q)) := by
  obtain ⟨hq, ho⟩ := pool?_some hq
  have hok := h.ok p q hq
  obtain ⟨hp, hxp⟩ := h.lt hq
  obtain ⟨st, ht, hrep⟩ := C.take k hok.repr
  rcases takeNewest_spec k (idleAt xss p) with hn | ⟨b, rest, hn, hsub, hcnt⟩
  · rw [hn] at ht hrep
    simp only [Option.map_none, Option.getD_none] at ht hrep
    simp only [Sys.get, ht, Out.ofOption, Good]
    refine ⟨xss.set p (idleAt xss p), A, P, ?_⟩
    constructor
    · simp [h.len]
    · exact ok_set h.len h.ok hq
        ⟨hrep, hok.bound, hok.closed, hok.sorted, hok.young⟩
    · exact h.thread
    · intro r; rw [h.reg]; exact (regAt_set_iff (q' := { q with state := st }) hq rfl rfl).symm
    · intro t ht; exact (h.tasks t ht).set hq id id
    · exact cover_sublist h.cover hp hok.sorted (fun x hx => List.mem_of_mem_head? hx)
    · intro a
      have h1 := h.own a
      have h2 := count_flatMap_set objs a xss p _ (idleAt xss p) hxp
      simp only [places, List.count_append, List.count_cons, List.count_nil] at h1 ⊢
      by_cases ha : s.made = a
      · subst ha; simp at h1 ⊢; omega
      · have : ¬ (s.made == a) = true := by simpa using ha
        simp only [if_neg this]
        split at h1 <;> split <;> omega
  · rw [hn] at ht hrep
    simp only [Option.map_some, Option.getD_some] at ht hrep
    simp only [Sys.get, ht, Out.ofOption, Good]
    refine ⟨xss.set p rest, A, P, ?_⟩
    constructor
    · simp [h.len]
    · exact ok_set h.len h.ok hq
        ⟨hrep, Nat.le_trans hsub.length_le hok.bound, by rw [ho]; simp,
          hok.sorted.sublist hsub, fun x hx => hok.young x (hsub.subset hx)⟩
    · exact h.thread
    · intro r; rw [h.reg]; exact (regAt_set_iff (q' := { q with state := st }) hq rfl rfl).symm
    · intro t ht; exact (h.tasks t ht).set hq id id
    · exact cover_sublist h.cover hp hok.sorted
        (fun x hx => hsub.subset (List.mem_of_mem_head? hx))
    · intro a
      have h1 := h.own a
      have h2 := count_flatMap_set objs a xss p _ rest hxp
      have h3 := hcnt a
      simp only [places, List.count_append] at h1 ⊢
      omega

omit [DecidableEq κ] in
theorem Cover.addTask {tasks : List Task} {bg : Bg} (h : Cover xss tasks bg P) (t : Task) :
    Cover xss (tasks ++ [t]) bg P := by
  intro r x D hx hD
  rcases h r x D hx hD with h | ⟨d, ev, hd, h⟩ | h | h | h
  · exact .inl h
  · exact .inr (.inl ⟨d, ev, hd, List.mem_append_left _ h⟩)
  · exact .inr (.inr (.inl (List.mem_append_left _ h)))
  · exact .inr (.inr (.inr (.inl h)))
  · exact .inr (.inr (.inr (.inr h)))

theorem SInv.clear (h : SInv C s xss A P) {p : Nat} {q : PoolState I.σ}
    (hq : s.pool? p = some q) :
    SInv C { s with tasks := s.tasks ++ [if q.registered then .cancel p else .clearLock p] }
      xss A P := by
  obtain ⟨hq, ho⟩ := pool?_some hq
  constructor
  · exact h.len
  · exact h.ok
  · exact h.thread
  · exact h.reg
  · intro t ht
    simp only [List.mem_append, List.mem_singleton] at ht
    rcases ht with ht | rfl
    · exact h.tasks t ht
    · split
      · exact ⟨q, hq, ho, by assumption⟩
      · exact ⟨q, hq, ho⟩
  · exact h.cover.addTask _
  · intro a
    have := h.own a
    simp only [places, List.flatMap_append, List.flatMap_cons, List.flatMap_nil,
      List.count_append] at this ⊢
    have e : List.count a (Task.evicted (if q.registered then .cancel p else .clearLock p)) = 0 := by
      split <;> rfl
    rw [e]
    simp only [List.count_nil]
    omega

omit [DecidableEq κ] in
theorem putNewest_spec (max : Nat) (x : κ × Nat × Option Nat) (xs : Idle κ Nat)
    (h : xs.length ≤ max) :
    (putNewest max x xs).2.length ≤ max ∧
    ((putNewest max x xs).2 = [] ∨ ∃ l, (putNewest max x xs).2 = l ++ [x] ∧ l.Sublist xs) ∧
    (putNewest max x xs).2.Sublist (xs ++ [x]) ∧
    (∀ a, List.count a (objs xs) + List.count a [x.2.1] =
      List.count a (objs (putNewest max x xs).2) +
        List.count a (putNewest max x xs).1.toList) := by
  by_cases hl : (xs ++ [x]).length ≤ max
  · simp only [putNewest, if_pos hl]
    refine ⟨hl, .inr ⟨xs, rfl, List.Sublist.refl _⟩, List.Sublist.refl _, ?_⟩
    intro a
    simp [objs, List.count_append]
  · simp only [putNewest, if_neg hl]
    refine ⟨?_, ?_, List.tail_sublist _, ?_⟩
    rotate_left
    · cases xs with
      | nil => exact .inl rfl
      | cons y ys => exact .inr ⟨ys, rfl, List.sublist_cons_self _ _⟩
    rotate_left
    · simp only [List.length_tail, List.length_append, List.length_singleton]
      omega
    · intro a
      cases xs with
      | nil => simp [objs]
      | cons y ys =>
        simp only [List.cons_append, List.tail_cons, List.head?_cons, Option.map_some,
          Option.toList_some, objs, List.map_append, List.map_cons, List.map_nil,
          List.count_append, List.count_cons, List.count_nil]
        omega

theorem SInv.put (h : SInv C s xss A P) {p : Nat} (k : κ) {b : Nat} {q : PoolState I.σ}
    (hq : s.pool? p = some q) (hb : b ∈ s.held) :
    Good C (.ofOption ({ s with held := s.held.erase b }.put p k b q)) := by
  obtain ⟨hq, ho⟩ := pool?_some hq
  have hok := h.ok p q hq
  obtain ⟨hp, hxp⟩ := h.lt hq
  obtain ⟨st, ht, hrep⟩ := C.put k b (q.deadline s.now) hok.repr
  obtain ⟨hb1, hb2, hb3, hb4⟩ := putNewest_spec q.maxSize (k, b, q.deadline s.now) _ hok.bound
  simp only [Sys.put, ht, Out.ofOption, Good]
  generalize hr : putNewest q.maxSize (k, b, q.deadline s.now) (idleAt xss p) = r at *
  have hyoung : ∀ x ∈ idleAt xss p ++ [(k, b, q.deadline s.now)],
      (q.age = none ∧ x.2.2 = none) ∨
        ∃ a d, q.age = some a ∧ x.2.2 = some d ∧ d ≤ s.now + a := by
    intro x hx
    simp only [List.mem_append, List.mem_singleton] at hx
    rcases hx with hx | rfl
    · exact hok.young x hx
    · cases ha : q.age with
      | none => left; simp [PoolState.deadline, ha]
      | some a => right; exact ⟨a, s.now + a, rfl, by simp [PoolState.deadline, ha], Nat.le_refl _⟩
  have hsort : (idleAt xss p ++ [(k, b, q.deadline s.now)]).Pairwise
      (fun x y => dle x.2.2 y.2.2) := by
    rw [List.pairwise_append]
    refine ⟨hok.sorted, List.pairwise_singleton _ _, ?_⟩
    intro x hx y hy
    simp only [List.mem_singleton] at hy
    subst hy
    intro d hd
    simp only [PoolState.deadline] at hd
    rcases hok.young x hx with ⟨h1, _⟩ | ⟨a, d', h1, h2, h3⟩
    · simp [h1] at hd
    · simp [h1] at hd
      exact ⟨d', h2, by omega⟩
  have hregp : regAt s.pools p ↔ q.registered = true := by
    constructor
    · rintro ⟨q', h1, _, h2⟩
      rw [hq] at h1; cases h1; exact h2
    · intro h1; exact ⟨q, hq, ho, h1⟩
  refine ⟨xss.set p r.2, if q.aging && !q.registered then p :: A else A, P, ?_⟩
  constructor
  · simp [h.len]
  · exact ok_set h.len h.ok hq
      ⟨hrep, hb1, by rw [ho]; simp, hsort.sublist hb3, fun x hx => hyoung x (hb3.subset hx)⟩
  · cases hc : (q.aging && !q.registered) with
    | false => exact h.thread
    | true =>
      refine h.thread.register ?_
      rw [h.reg, hregp]
      simp at hc
      simp [hc.2]
  · intro r'
    have hplen : p < s.pools.length := (List.getElem?_eq_some_iff.mp hq).1
    constructor
    · intro hr'
      have : r' = p ∧ q.aging = true ∨ regAt s.pools r' := by
        cases hc : (q.aging && !q.registered) with
        | false => rw [hc] at hr'; exact .inr ((h.reg r').mp hr')
        | true =>
          rw [hc] at hr'
          simp only [if_true, List.cons_append, List.mem_cons] at hr'
          rcases hr' with rfl | hr'
          · left; simp at hc; exact ⟨rfl, hc.1⟩
          · exact .inr ((h.reg r').mp hr')
      rcases this with ⟨rfl, hag⟩ | hh
      · refine ⟨{ q with state := st, registered := q.registered || q.aging }, ?_, ho, ?_⟩
        · simp only [List.getElem?_set, if_true, hplen]
        · simp [hag]
      · exact regAt_set hq id (fun hh => by simp [hh]) hh
    · rintro ⟨q', hq', h1, h2⟩
      simp only [List.getElem?_set] at hq'
      by_cases hrp : p = r'
      · subst hrp
        simp only [if_true, hplen, Option.some.injEq] at hq'
        subst hq'
        simp only [Bool.or_eq_true] at h2
        by_cases hreg : q.registered = true
        · have := (h.reg p).mpr (hregp.mpr hreg)
          split
          · rw [List.cons_append]; exact List.mem_cons_of_mem _ this
          · exact this
        · have hag : q.aging = true := by
            rcases h2 with h2 | h2
            · exact absurd h2 hreg
            · exact h2
          simp [hag, hreg]
      · simp only [if_neg hrp] at hq'
        have := (h.reg r').mpr ⟨q', hq', h1, h2⟩
        split
        · rw [List.cons_append]; exact List.mem_cons_of_mem _ this
        · exact this
  · intro t ht
    simp only [List.mem_append, List.mem_singleton] at ht
    rcases ht with ht | rfl
    · exact (h.tasks t ht).set hq id (fun hh => by simp [hh])
    · cases hs : (if r.2.length = 1 then q.deadline s.now else none) with
      | none => trivial
      | some d =>
        have hplen : p < s.pools.length := (List.getElem?_eq_some_iff.mp hq).1
        refine ⟨{ q with state := st, registered := q.registered || q.aging }, ?_, ho, ?_⟩
        · simp only [List.getElem?_set, if_true, hplen]
        · have hl : r.2.length = 1 ∧ q.deadline s.now = some d := by
            split at hs
            · exact ⟨by assumption, hs⟩
            · cases hs
          have h1 : q.maxSize ≠ 0 := by omega
          have h2 : q.age.isSome = true := by
            have := hl.2
            cases ha : q.age with
            | none => simp [PoolState.deadline, ha] at this
            | some a => rfl
          simp [PoolState.aging, h1, h2]
  · intro r' x D hx hD
    rw [idleAt_set hp] at hx
    by_cases hrp : r' = p
    · subst hrp
      simp only [if_true] at hx
      rcases hb2 with hnil | ⟨l, hl, hsub⟩
      · rw [hnil] at hx; simp at hx
      · cases l with
        | nil =>
          rw [hl] at hx
          simp at hx
          subst hx
          simp only at hD
          right; left
          refine ⟨D, r.1.toList, Nat.le_refl _, ?_⟩
          simp [hl, hD, putTask]
        | cons y ys =>
          rw [hl] at hx
          simp at hx
          subst hx
          have hmem : y ∈ idleAt xss r' := hsub.subset (by simp)
          have hc : Cover (xss.set r' [y]) s.tasks s.bg P :=
            cover_sublist h.cover hp hok.sorted (by
              intro z hz; simp at hz; subst hz; exact hmem)
          exact (hc.addTask _) r' y D (by rw [idleAt_set hp]; simp) hD
    · simp only [if_neg hrp] at hx
      exact (h.cover.addTask _) r' x D hx hD
  · intro a
    have h1 := h.own a
    have h2 := count_flatMap_set objs a xss p _ r.2 hxp
    have h3 := hb4 a
    simp only [places, List.flatMap_append, List.flatMap_cons, List.flatMap_nil,
      List.count_append, List.count_erase] at h1 ⊢
    have e : ∀ o : Option Nat, List.count a (Task.evicted (putTask p o r.1.toList)) =
        List.count a r.1.toList := by
      intro o; cases o <;> rfl
    rw [e]
    have h4 : 0 < List.count b s.held := List.count_pos_iff.mpr hb
    simp only [List.count_cons, List.count_nil] at h3 ⊢
    by_cases hab : b = a
    · subst hab; simp at h1 h3 ⊢; omega
    · have : ¬ (b == a) = true := by simpa using hab
      simp only [if_neg this] at h3 ⊢
      omega

theorem SInv.close (h : SInv C s xss A P) {p : Nat} {q : PoolState I.σ}
    (hq : s.pool? p = some q) (ht : s.tasks.any (Task.on p) = false)
    (hc : ¬ (q.registered = true ∧ s.cleaner.current = some p)) :
    Good C (.ofOption (s.close p q)) := by
  obtain ⟨hq, ho⟩ := pool?_some hq
  have hok := h.ok p q hq
  obtain ⟨hp, hxp⟩ := h.lt hq
  have hplen : p < s.pools.length := (List.getElem?_eq_some_iff.mp hq).1
  obtain ⟨ev, st, hcl, hperm, hrep⟩ := C.clear hok.repr
  have hregp : regAt s.pools p ↔ q.registered = true := by
    constructor
    · rintro ⟨q', h1, _, h2⟩
      rw [hq] at h1; cases h1; exact h2
    · intro h1; exact ⟨q, hq, ho, h1⟩
  have htarget : s.bg.target ≠ some p := by
    intro hh
    have h1 := h.thread.targetReg p hh
    rw [h.reg, hregp] at h1
    exact hc ⟨h1, by rw [h.thread.target]; exact hh⟩
  have hcleaner : ∃ c', (if q.registered then s.cleaner.unregister p else some s.cleaner) = some c' ∧
      ThreadInv c' s.bg (A.filter (fun r => r != p)) (P.filter (fun r => r.1 != p)) := by
    by_cases hr : q.registered = true
    · obtain ⟨c', h1, h2, h3, h4, h5⟩ := h.thread.inv.unregister ((h.reg p).mpr (hregp.mpr hr))
      refine ⟨c', by rw [if_pos hr]; exact h1, ⟨h2, ?_, ?_, ?_, ?_, ?_⟩⟩
      · rw [h5]; exact h.thread.off
      · intro hne
        refine h.thread.alive ?_
        intro hh; rw [hh] at hne; exact hne rfl
      · intro d hd
        rw [h4]
        rcases h.thread.waits d hd with h6 | ⟨d', h6, h7⟩
        · exact .inl h6
        · exact .inr ⟨d', h6, fun x hx => h7 x (List.mem_filter.mp hx).1⟩
      · rw [h3]; exact h.thread.target
      · intro r hr
        have := h.thread.targetReg r hr
        have hrp : r ≠ p := by intro hh; subst hh; exact htarget hr
        simp only [List.mem_append, List.mem_map, List.mem_filter] at this ⊢
        rcases this with h6 | ⟨x, hx, rfl⟩
        · exact .inl ⟨h6, by simpa using hrp⟩
        · exact .inr ⟨x, ⟨hx, by simpa using hrp⟩, rfl⟩
    · have hnot : p ∉ A ++ P.map (·.1) := by rw [h.reg, hregp]; exact hr
      simp only [List.mem_append, not_or] at hnot
      refine ⟨s.cleaner, by rw [if_neg hr], ?_⟩
      rw [filter_ne_self hnot.1, filter_ne_selfP hnot.2]
      exact h.thread
  obtain ⟨c', hc', hth⟩ := hcleaner
  simp only [Sys.close, hc', hcl, Out.ofOption, Good]
  have htask : ∀ t ∈ s.tasks, Task.on p t = false := by
    intro t htm
    have := List.any_eq_false.mp ht t htm
    simpa using this
  refine ⟨xss.set p [], A.filter (fun r => r != p), P.filter (fun r => r.1 != p), ?_⟩
  constructor
  · simp [h.len]
  · exact ok_set h.len h.ok hq ⟨hrep, by simp, fun _ => rfl, .nil, by simp⟩
  · exact hth
  · intro r
    have hmem : r ∈ A.filter (fun r => r != p) ++ (P.filter (fun r => r.1 != p)).map (·.1) ↔
        r ∈ A ++ P.map (·.1) ∧ r ≠ p := by
      simp only [List.mem_append, List.mem_map, List.mem_filter]
      constructor
      · rintro (⟨h1, h2⟩ | ⟨x, ⟨hx, h2⟩, rfl⟩)
        · exact ⟨.inl h1, by simpa using h2⟩
        · exact ⟨.inr ⟨x, hx, rfl⟩, by simpa using h2⟩
      · rintro ⟨h1 | ⟨x, hx, rfl⟩, h2⟩
        · exact .inl ⟨h1, by simpa using h2⟩
        · exact .inr ⟨x, ⟨hx, by simpa using h2⟩, rfl⟩
    rw [hmem, h.reg]
    constructor
    · rintro ⟨⟨x, h1, h2⟩, hrp⟩
      refine ⟨x, ?_, h2⟩
      have : ¬ p = r := fun hh => hrp hh.symm
      simp [List.getElem?_set, this, h1]
    · rintro ⟨x, h1, h2, h3⟩
      simp only [List.getElem?_set] at h1
      by_cases hrp : p = r
      · subst hrp
        simp only [if_true, hplen, Option.some.injEq] at h1
        subst h1
        cases h2
      · simp only [if_neg hrp] at h1
        exact ⟨⟨x, h1, h2, h3⟩, fun hh => hrp hh.symm⟩
  · intro t htm
    have h1 := h.tasks t htm
    have h2 := htask t htm
    have hne : ∀ r, openAt s.pools r → r ≠ p →
        openAt (s.pools.set p { q with state := st, isOpen := false }) r := by
      rintro r ⟨x, hx, hx'⟩ hrp
      have : ¬ p = r := fun hh => hrp hh.symm
      exact ⟨x, by simp [List.getElem?_set, this, hx], hx'⟩
    have hne' : ∀ r, regAt s.pools r → r ≠ p →
        regAt (s.pools.set p { q with state := st, isOpen := false }) r := by
      rintro r ⟨x, hx, hx'⟩ hrp
      have : ¬ p = r := fun hh => hrp hh.symm
      exact ⟨x, by simp [List.getElem?_set, this, hx], hx'⟩
    cases t with
    | schedule r d ev => exact hne' r h1 (by simpa [Task.on] using h2)
    | cancel r => exact hne' r h1 (by simpa [Task.on] using h2)
    | clearLock r => exact hne r h1 (by simpa [Task.on] using h2)
    | destroy ev => trivial
    | done => trivial
  · intro r x D hx hD
    rw [idleAt_set hp] at hx
    by_cases hrp : r = p
    · rw [if_pos hrp] at hx; cases hx
    · rw [if_neg hrp] at hx
      rcases h.cover r x D hx hD with ⟨d, hd, hm⟩ | hh
      · exact .inl ⟨d, hd, List.mem_filter.mpr ⟨hm, by simpa using hrp⟩⟩
      · exact .inr hh
  · intro a
    have h1 := h.own a
    have h2 := count_flatMap_set objs a xss p _ [] hxp
    have h3 := hperm.count_eq a
    simp only [objs, List.map_nil, List.count_nil] at h2
    simp only [places, List.count_append] at h1 ⊢
    have h4 : List.count a (List.map (fun x => x.2.1) (idleAt xss p)) =
      List.count a (objs (idleAt xss p)) := rfl
    simp only [objs] at *
    omega

/-! ## Operations in progress -/

theorem mem_set_of_ne {α : Type} {l : List α} {i : Nat} {x t : α} (y : α)
    (hi : l[i]? = some x) (ht : t ∈ l) (hne : t ≠ x) : t ∈ l.set i y := by
  obtain ⟨j, hj⟩ := List.mem_iff_getElem?.mp ht
  have hij : i ≠ j := by
    intro hh; subst hh; rw [hi] at hj; cases hj; exact hne rfl
  refine List.mem_iff_getElem?.mpr ⟨j, ?_⟩
  rw [List.getElem?_set]
  simp [hij, hj]

theorem mem_of_mem_set {α : Type} {l : List α} {i : Nat} {t y : α} (ht : t ∈ l.set i y) :
    t ∈ l ∨ t = y := List.mem_or_eq_of_mem_set ht

theorem ThreadInv.schedule {c : Cleaner} {bg : Bg} (h : ThreadInv c bg A P) {p : Nat} (d : Nat)
    (hp : p ∈ A ++ P.map (·.1)) :
    ∃ c' started A' P' bg', c.schedule p d = some (c', started) ∧
      bg.started started = some bg' ∧ ThreadInv c' bg' A' P' ∧
      (∀ r, r ∈ A' ++ P'.map (·.1) ↔ r ∈ A ++ P.map (·.1)) ∧
      (bg' = bg ∨ (bg = .off ∧ bg' = .starting)) ∧
      (∃ d', d' ≤ d ∧ P'.Perm ((p, d') :: P.filter (fun q => q.1 != p)) ∧
        (∀ e, (p, e) ∈ P → d' ≤ e) ∧ (d' = d ∨ (p, d') ∈ P)) := by
  obtain ⟨c', started, A', P', hs, hS⟩ := h.inv.schedule d hp
  obtain ⟨d', hd', hperm, hd'', hmin⟩ := hS.busy
  have hmemP : ∀ x, x ∈ P' ↔ x = (p, d') ∨ (x ∈ P ∧ x.1 ≠ p) := by
    intro x
    rw [hperm.mem_iff]
    simp [List.mem_filter]
  have hmem : ∀ r, r ∈ A' ++ P'.map (·.1) ↔ r ∈ A ++ P.map (·.1) := by
    intro r
    rw [hS.idle]
    simp only [List.mem_append, List.mem_map, List.mem_filter]
    constructor
    · rintro (⟨h1, _⟩ | ⟨x, hx, rfl⟩)
      · exact .inl h1
      · rcases (hmemP x).mp hx with rfl | ⟨h1, _⟩
        · simpa [List.mem_append, List.mem_map] using hp
        · exact .inr ⟨x, h1, rfl⟩
    · intro hr
      by_cases hrp : r = p
      · subst hrp
        exact .inr ⟨(r, d'), (hmemP _).mpr (.inl rfl), rfl⟩
      · rcases hr with h1 | ⟨x, hx, rfl⟩
        · exact .inl ⟨h1, by simpa using hrp⟩
        · exact .inr ⟨x, (hmemP _).mpr (.inr ⟨hx, hrp⟩), rfl⟩
  have hwait : ∀ dd, bg = .waiting dd → c'.reduced = true ∨
      ∃ d1, dd = some d1 ∧ ∀ x ∈ P', d1 ≤ x.2 := by
    intro dd hdd
    rcases hS.woken with hw | ⟨hw, x, hx, hxd⟩
    · exact .inl hw
    · rcases h.waits dd hdd with h1 | ⟨d1, h1, h2⟩
      · left; rw [hw]; exact h1
      · right
        refine ⟨d1, h1, ?_⟩
        intro y hy
        have := h2 x hx
        rcases (hmemP y).mp hy with rfl | ⟨hy, _⟩
        · rcases hd'' with rfl | hm
          · simp only; omega
          · exact h2 _ hm
        · exact h2 y hy
  have hreg : ∀ r, bg.target = some r → r ∈ A' ++ P'.map (·.1) :=
    fun r hr => (hmem r).mpr (h.targetReg r hr)
  by_cases hoff : bg = .off
  · subst hoff
    have hno : c.noThread = true := h.off.mp rfl
    have hP : P = [] := by
      cases hPc : P with
      | nil => rfl
      | cons y Y => exact absurd rfl (h.alive (by simp [hPc]))
    have hst : started = true ∧ c'.noThread = false := by
      rcases hS.thread with ⟨_, _, x, hx, _⟩ | ⟨h1, h2⟩
      · rw [hP] at hx; cases hx
      · exact ⟨h2.trans hno, h1⟩
    refine ⟨c', started, A', P', .starting, hs, by simp [Bg.started, hst.1], ?_, hmem,
      .inr ⟨rfl, rfl⟩, d', hd', hperm, hmin, hd''⟩
    exact ⟨hS.inv, by simp [hst.2], by simp, by simp, by rw [hS.current, h.target]; rfl,
      by simp [Bg.target]⟩
  · have hno : c.noThread = false := by
      cases hh : c.noThread with
      | false => rfl
      | true => exact absurd (h.off.mpr hh) hoff
    have hst : started = false ∧ c'.noThread = false := by
      rcases hS.thread with ⟨h1, h2, _⟩ | ⟨h1, h2⟩
      · exact ⟨h1, h2.trans hno⟩
      · exact ⟨h2.trans hno, h1⟩
    refine ⟨c', started, A', P', bg, hs, by simp [Bg.started, hst.1], ?_, hmem,
      .inl rfl, d', hd', hperm, hmin, hd''⟩
    exact ⟨hS.inv, by simp [hst.2, hoff], fun _ => hoff, hwait, by rw [hS.current, h.target], hreg⟩

/-- Scheduling keeps a pool covered. -/
theorem covered_schedule {tasks : List Task} {bg : Bg} {P' : List (Nat × Nat)} {p d' r D : Nat}
    (hperm : P'.Perm ((p, d') :: P.filter (fun q => q.1 != p)))
    (hmin : ∀ e, (p, e) ∈ P → d' ≤ e) (h : Covered tasks bg P r D) :
    Covered tasks bg P' r D := by
  rcases h with ⟨d, hd, h⟩ | h
  · left
    by_cases hrp : r = p
    · subst hrp
      exact ⟨d', Nat.le_trans (hmin d h) hd, hperm.mem_iff.mpr (by simp)⟩
    · exact ⟨d, hd, hperm.mem_iff.mpr (by simp [h, hrp])⟩
  · exact .inr h

theorem SInv.run (h : SInv C s xss A P) (i : Nat) : Good C (s.run i) := by
  cases hi : s.tasks[i]? with
  | none => simp only [Sys.run, hi]; trivial
  | some t =>
    have hmem : t ∈ s.tasks := List.mem_iff_getElem?.mpr ⟨i, hi⟩
    have hokt := h.tasks t hmem
    cases t with
    | done => simp only [Sys.run, hi]; trivial
    | destroy ev =>
      simp only [Sys.run, hi, Good]
      refine ⟨xss, A, P, ?_⟩
      constructor
      · exact h.len
      · exact h.ok
      · exact h.thread
      · exact h.reg
      · intro t ht
        rcases mem_of_mem_set ht with ht | rfl
        · exact h.tasks t ht
        · trivial
      · intro r x D hx hD
        rcases h.cover r x D hx hD with h1 | ⟨d, ev', hd, h1⟩ | h1 | h1 | h1
        · exact .inl h1
        · exact .inr (.inl ⟨d, ev', hd, mem_set_of_ne _ hi h1 (by simp)⟩)
        · exact .inr (.inr (.inl (mem_set_of_ne _ hi h1 (by simp))))
        · exact .inr (.inr (.inr (.inl h1)))
        · exact .inr (.inr (.inr (.inr h1)))
      · intro a
        have h1 := h.own a
        have h2 := count_flatMap_set Task.evicted a s.tasks i _ Task.done hi
        simp only [places, List.count_append, Task.evicted, List.count_nil] at h1 h2 ⊢
        omega
    | schedule p d ev =>
      obtain ⟨c', started, A', P', bg', hs, hb, hth, hm, hbg, d', hd', hperm, hmin, _⟩ :=
        h.thread.schedule d ((h.reg p).mpr hokt)
      simp only [Sys.run, hi, hs, hb, Option.bind_some, Option.map_some, Out.ofOption, Good]
      refine ⟨xss, A', P', ?_⟩
      constructor
      · exact h.len
      · exact h.ok
      · exact hth
      · intro r; rw [hm]; exact h.reg r
      · intro t ht
        rcases mem_of_mem_set ht with ht | rfl
        · exact h.tasks t ht
        · trivial
      · intro r x D hx hD
        have h0 := covered_schedule hperm hmin (h.cover r x D hx hD)
        rcases h0 with h1 | ⟨dd, ev', hd, h1⟩ | h1 | ⟨t, h1⟩ | ⟨ev', dd, h2, h1⟩
        · exact .inl h1
        · by_cases heq : Task.schedule r dd ev' = Task.schedule p d ev
          · cases heq
            exact .inl ⟨d', Nat.le_trans hd' hd, hperm.mem_iff.mpr (by simp)⟩
          · exact .inr (.inl ⟨dd, ev', hd, mem_set_of_ne _ hi h1 heq⟩)
        · exact .inr (.inr (.inl (mem_set_of_ne _ hi h1 (by simp))))
        · rcases hbg with rfl | ⟨hb1, _⟩
          · exact .inr (.inr (.inr (.inl ⟨t, h1⟩)))
          · rw [hb1] at h1; cases h1
        · rcases hbg with rfl | ⟨hb1, _⟩
          · exact .inr (.inr (.inr (.inr ⟨ev', dd, h2, h1⟩)))
          · rw [hb1] at h1; cases h1
      · intro a
        have h1 := h.own a
        have h2 := count_flatMap_set Task.evicted a s.tasks i _ (Task.destroy ev) hi
        have h3 : List.count a bg'.evicted = List.count a s.bg.evicted := by
          rcases hbg with rfl | ⟨hb1, hb2⟩
          · rfl
          · rw [hb1, hb2]; rfl
        simp only [places, Task.evicted] at h1 h2 ⊢
        omega
    | cancel p =>
      by_cases hcur : s.cleaner.current = some p
      · simp only [Sys.run, hi, if_pos hcur]; trivial
      · obtain ⟨c', A', hc, hinv, hA, h1, h2, h3⟩ := h.thread.inv.cancel ((h.reg p).mpr hokt)
        simp only [Sys.run, hi, if_neg hcur, hc, Option.map_some, Out.ofOption, Good]
        have hm : ∀ r, r ∈ A' ++ (P.filter (fun q => q.1 != p)).map (·.1) ↔
            r ∈ A ++ P.map (·.1) := by
          intro r
          simp only [List.mem_append, List.mem_map, List.mem_filter, hA]
          constructor
          · rintro ((h4 | rfl) | ⟨x, ⟨hx, _⟩, rfl⟩)
            · exact .inl h4
            · simpa [List.mem_append, List.mem_map] using (h.reg r).mpr hokt
            · exact .inr ⟨x, hx, rfl⟩
          · rintro (h4 | ⟨x, hx, rfl⟩)
            · exact .inl (.inl h4)
            · by_cases hxp : x.1 = p
              · exact .inl (.inr hxp)
              · exact .inr ⟨x, ⟨hx, by simpa using hxp⟩, rfl⟩
        refine ⟨xss, A', P.filter (fun q => q.1 != p), ?_⟩
        constructor
        · exact h.len
        · exact h.ok
        · refine ⟨hinv, ?_, ?_, ?_, ?_, ?_⟩
          · rw [h3]; exact h.thread.off
          · intro hne
            refine h.thread.alive ?_
            intro hh; rw [hh] at hne; exact hne rfl
          · intro d hd
            rw [h2]
            rcases h.thread.waits d hd with h6 | ⟨d', h6, h7⟩
            · exact .inl h6
            · exact .inr ⟨d', h6, fun x hx => h7 x (List.mem_filter.mp hx).1⟩
          · rw [h1]; exact h.thread.target
          · intro r hr; rw [hm]; exact h.thread.targetReg r hr
        · intro r; rw [hm]; exact h.reg r
        · intro t ht
          rcases mem_of_mem_set ht with ht | rfl
          · exact h.tasks t ht
          · exact regAt.isOpen hokt
        · intro r x D hx hD
          by_cases hrp : r = p
          · subst hrp
            refine .inr (.inr (.inl ?_))
            have : i < s.tasks.length := (List.getElem?_eq_some_iff.mp hi).1
            exact List.mem_iff_getElem?.mpr ⟨i, by simp [this]⟩
          · rcases h.cover r x D hx hD with ⟨d, hd, h1⟩ | ⟨d, ev', hd, h1⟩ | h1 | h1 | h1
            · exact .inl ⟨d, hd, List.mem_filter.mpr ⟨h1, by simpa using hrp⟩⟩
            · exact .inr (.inl ⟨d, ev', hd, mem_set_of_ne _ hi h1 (by simp)⟩)
            · exact .inr (.inr (.inl (mem_set_of_ne _ hi h1 (by simp))))
            · exact .inr (.inr (.inr (.inl h1)))
            · exact .inr (.inr (.inr (.inr h1)))
        · intro a
          have h1 := h.own a
          have h2 := count_flatMap_set Task.evicted a s.tasks i _ (Task.clearLock p) hi
          simp only [places, Task.evicted] at h1 h2 ⊢
          omega
    | clearLock p =>
      obtain ⟨q, hq⟩ := pool?_of_open hokt
      have hq0 := hq
      obtain ⟨hq, ho⟩ := pool?_some hq
      have hok := h.ok p q hq
      obtain ⟨hp, hxp⟩ := h.lt hq
      obtain ⟨ev, st, hcl, hpm, hrep⟩ := C.clear hok.repr
      simp only [Sys.run, hi, hq0, hcl, Option.map_some, Out.ofOption, Good]
      refine ⟨xss.set p [], A, P, ?_⟩
      constructor
      · simp [h.len]
      · exact ok_set h.len h.ok hq ⟨hrep, by simp, fun _ => rfl, .nil, by simp⟩
      · exact h.thread
      · intro r; rw [h.reg]; exact (regAt_set_iff (q' := { q with state := st }) hq rfl rfl).symm
      · intro t ht
        rcases mem_of_mem_set ht with ht | rfl
        · exact (h.tasks t ht).set hq id id
        · trivial
      · intro r x D hx hD
        rw [idleAt_set hp] at hx
        by_cases hrp : r = p
        · rw [if_pos hrp] at hx; cases hx
        · rw [if_neg hrp] at hx
          rcases h.cover r x D hx hD with h1 | ⟨d, ev', hd, h1⟩ | h1 | h1 | h1
          · exact .inl h1
          · exact .inr (.inl ⟨d, ev', hd, mem_set_of_ne _ hi h1 (by simp)⟩)
          · exact .inr (.inr (.inl (mem_set_of_ne _ hi h1 (by simp [hrp]))))
          · exact .inr (.inr (.inr (.inl h1)))
          · exact .inr (.inr (.inr (.inr h1)))
      · intro a
        have h1 := h.own a
        have h2 := count_flatMap_set Task.evicted a s.tasks i _ (Task.destroy ev) hi
        have h3 := count_flatMap_set objs a xss p _ [] hxp
        have h4 := hpm.count_eq a
        simp only [places, Task.evicted, List.count_nil] at h1 h2 ⊢
        have h5 : List.count a (objs (κ := κ) []) = 0 := rfl
        simp only [objs] at *
        omega

/-! ## The background thread -/

/-- How far the background thread is from having nothing to do at the time `now`. -/
def weight (now : Nat) (reduced : Bool) : Bg → Nat
  | .off => 0
  | .starting => 3
  | .waiting d => if reduced then 2 else if later d now then 0 else 1
  | .cleaning _ t => if t < now then 13 else 5
  | .cleaned _ _ d => if later d now then 4 else 12
  | .relock _ => 3

/-- The same, with the cleanings due. -/
def measure' (s : Sys I) (P : List (Nat × Nat)) : Nat :=
  8 * P.countP (fun x => decide (x.2 ≤ s.now)) + weight s.now s.cleaner.reduced s.bg

/-- A step of the background thread. -/
def BgGood (C : I.Correct) (s : Sys I) (P : List (Nat × Nat)) : Out (Sys I) → Prop
  | .next s' => ∃ xss' A' P', SInv C s' xss' A' P' ∧ s'.now = s.now ∧ s'.tasks = s.tasks ∧
      measure' s' P' < measure' s P
  | .refused => ∀ x ∈ P, s.now < x.2
  | .crash => False

theorem Cover.notCleaning {tasks : List Task} {bg : Bg} (h : Cover xss tasks bg P)
    (h1 : ∀ p t, bg ≠ .cleaning p t) (h2 : ∀ p ev d, bg ≠ .cleaned p ev d) (bg' : Bg) :
    Cover xss tasks bg' P := by
  intro r x D hx hD
  rcases h r x D hx hD with h | h | h | ⟨t, h⟩ | ⟨ev, d, _, h⟩
  · exact .inl h
  · exact .inr (.inl h)
  · exact .inr (.inr (.inl h))
  · exact absurd h (h1 _ _)
  · exact absurd h (h2 _ _ _)

/-- Only the cleaner and the background thread changed. -/
theorem SInv.moved (h : SInv C s xss A P) {c' : Cleaner} {bg' : Bg} {A' : List Nat}
    {P' : List (Nat × Nat)} (hth : ThreadInv c' bg' A' P')
    (hm : ∀ r, r ∈ A' ++ P'.map (·.1) ↔ r ∈ A ++ P.map (·.1))
    (hcov : Cover xss s.tasks bg' P') (hev : bg'.evicted = s.bg.evicted) :
    SInv C { s with cleaner := c', bg := bg' } xss A' P' where
  len := h.len
  ok := h.ok
  thread := hth
  reg := fun r => (hm r).trans (h.reg r)
  tasks := h.tasks
  cover := hcov
  own := by
    intro a
    have := h.own a
    simp only [places, hev] at this ⊢
    exact this

theorem bg_exit (h : SInv C s xss A P) (hP : P = []) (h1 : ∀ p t, s.bg ≠ .cleaning p t)
    (h2 : ∀ p ev d, s.bg ≠ .cleaned p ev d) {c : Cleaner} (hc : CInv c A P)
    (hcur : c.current = none) (hw : 0 < weight s.now s.cleaner.reduced s.bg) :
    BgGood C s P (s.thread (some c.exit)) := by
  simp only [Sys.thread, Option.map_some, Out.ofOption, BgGood, Cleaner.exit]
  refine ⟨xss, A, P, h.moved ?_ (fun _ => Iff.rfl) (h.cover.notCleaning h1 h2 _) ?_, by simp, by simp, ?_⟩
  · exact ⟨⟨hc.entries, hc.next, hc.sorted, hc.nodup⟩, by simp, by simp [hP], by simp,
      by simp [hcur, Bg.target], by simp [Bg.target]⟩
  · cases hb : s.bg with
    | cleaned p ev d => exact absurd hb (h2 _ _ _)
    | _ => rfl
  · have e : ∀ r, weight s.now r Bg.off = 0 := fun _ => rfl
    simp only [measure', e, hP, List.countP_nil]
    omega

theorem bg_wait (h : SInv C s xss A P) (hP : P ≠ []) (h1 : ∀ p t, s.bg ≠ .cleaning p t)
    (h2 : ∀ p ev d, s.bg ≠ .cleaned p ev d) {c : Cleaner} (hc : CInv c A P)
    (hcur : c.current = none) (hno : c.noThread = false)
    {x : Nat × Nat} {Q : List (Nat × Nat)} (hPQ : P = x :: Q)
    (hw : (if s.now < x.2 then 0 else 1) < weight s.now s.cleaner.reduced s.bg) :
    BgGood C s P (s.thread (some ({ c with reduced := false }, .waiting (some x.2)))) := by
  simp only [Sys.thread, Option.map_some, Out.ofOption, BgGood]
  refine ⟨xss, A, P, h.moved ?_ (fun _ => Iff.rfl) (h.cover.notCleaning h1 h2 _) ?_, by simp, by simp, ?_⟩
  · refine ⟨⟨hc.entries, hc.next, hc.sorted, hc.nodup⟩, by simp [hno], by simp, ?_,
      by simp [hcur, Bg.target], by simp [Bg.target]⟩
    intro d hd
    cases hd
    right
    refine ⟨x.2, rfl, ?_⟩
    intro y hy
    have := hc.sorted
    rw [hPQ] at this hy
    rcases List.mem_cons.mp hy with rfl | hy
    · exact Nat.le_refl _
    · exact (List.pairwise_cons.mp this).1 y hy
  · cases hb : s.bg with
    | cleaned p ev d => exact absurd hb (h2 _ _ _)
    | _ => rfl
  · have e : weight s.now false (.waiting (some x.2)) = if s.now < x.2 then 0 else 1 := by
      simp [weight, later]
    simp only [measure', e]
    omega

theorem bg_inner (h : SInv C s xss A P) (hP : P ≠ []) (h1 : ∀ p t, s.bg ≠ .cleaning p t)
    (h2 : ∀ p ev d, s.bg ≠ .cleaned p ev d) {c : Cleaner} (hc : CInv c A P)
    (hcur : c.current = none) (hno : c.noThread = false)
    (hw : 0 < weight s.now s.cleaner.reduced s.bg) :
    BgGood C s P (s.thread (c.inner s.now)) := by
  obtain ⟨x, Q, hPQ, h3⟩ := hc.inner s.now hP
  rcases h3 with ⟨hx, hin⟩ | ⟨hx, c', hin, hinv, hc1, hc2, hc3⟩
  · rw [hin]
    exact bg_wait h hP h1 h2 hc hcur hno hPQ (by rw [if_pos hx]; exact hw)
  · rw [hin]
    simp only [Sys.thread, Option.map_some, Out.ofOption, BgGood]
    refine ⟨xss, A ++ [x.1], Q, h.moved ?_ ?_ ?_ ?_, by simp, by simp, ?_⟩
    · refine ⟨hinv, by simp [hc3, hno], by simp, by simp, by rw [hc1]; rfl, ?_⟩
      intro r hr
      simp [Bg.target] at hr
      subst hr
      simp
    · intro r
      simp [hPQ]
    · intro r y D hy hD
      rcases h.cover.notCleaning h1 h2 .off r y D hy hD with ⟨d, hd, hh⟩ | hh | hh | ⟨t, hh⟩ |
        ⟨ev, d, _, hh⟩
      · rw [hPQ] at hh
        rcases List.mem_cons.mp hh with hh | hh
        · refine .inr (.inr (.inr (.inl ⟨s.now, ?_⟩)))
          rw [← hh]
        · exact .inl ⟨d, hd, hh⟩
      · exact .inr (.inl hh)
      · exact .inr (.inr (.inl hh))
      · cases hh
      · cases hh
    · cases hb : s.bg with
      | cleaned p ev d => exact absurd hb (h2 _ _ _)
      | _ => rfl
    · have hcount : P.countP (fun x => decide (x.2 ≤ s.now)) =
          Q.countP (fun x => decide (x.2 ≤ s.now)) + 1 := by
        rw [hPQ, List.countP_cons]
        simp [hx]
      have e : ∀ r, weight s.now r (.cleaning x.1 s.now) = 5 := by simp [weight]
      simp only [measure', e, hcount]
      omega

theorem countP_schedule {P' : List (Nat × Nat)} {p d d' now : Nat}
    (hperm : P'.Perm ((p, d') :: P.filter (fun q => q.1 != p)))
    (hd : d' = d ∨ (p, d') ∈ P) :
    P'.countP (fun x => decide (x.2 ≤ now)) ≤
      P.countP (fun x => decide (x.2 ≤ now)) + (if d ≤ now then 1 else 0) := by
  rw [hperm.countP_eq, List.countP_cons]
  have hf : (P.filter (fun q => q.1 != p)).countP (fun x => decide (x.2 ≤ now)) ≤
      P.countP (fun x => decide (x.2 ≤ now)) := List.filter_sublist.countP_le
  rcases hd with rfl | hd
  · simp only [decide_eq_true_eq]
    omega
  · obtain ⟨X, Y, rfl⟩ := List.append_of_mem hd
    have hX : (X.filter (fun q => q.1 != p)).countP (fun x => decide (x.2 ≤ now)) ≤
      X.countP (fun x => decide (x.2 ≤ now)) := List.filter_sublist.countP_le
    have hY : (Y.filter (fun q => q.1 != p)).countP (fun x => decide (x.2 ≤ now)) ≤
      Y.countP (fun x => decide (x.2 ≤ now)) := List.filter_sublist.countP_le
    simp only [List.filter_append, List.filter_cons, bne_self_eq_false, Bool.false_eq_true,
      if_false, List.countP_append, List.countP_cons]
    omega

theorem SInv.bg (h : SInv C s xss A P) : BgGood C s P s.bgStep := by
  have hcur : s.bg.target = none → s.cleaner.current = none := by
    intro hh; rw [h.thread.target]; exact hh
  have hno : s.bg ≠ .off → s.cleaner.noThread = false := by
    intro hh
    cases hn : s.cleaner.noThread with
    | false => rfl
    | true => exact absurd (h.thread.off.mpr hn) hh
  have hnone : s.cleaner.next = none ↔ P = [] := h.thread.inv.next_none
  cases hbg : s.bg with
  | off =>
    simp only [Sys.bgStep, hbg, BgGood]
    intro x hx
    exact absurd hbg (h.thread.alive (List.ne_nil_of_mem hx))
  | starting =>
    simp only [Sys.bgStep, hbg]
    split
    · rename_i hn
      exact bg_exit h (hnone.mp hn) (by simp [hbg]) (by simp [hbg]) h.thread.inv
        (hcur (by rw [hbg]; rfl)) (by simp [hbg, weight])
    · rename_i hn
      have hP : P ≠ [] := fun hh => hn (hnone.mpr hh)
      obtain ⟨x, Q, hPQ, hwt⟩ := h.thread.inv.wait hP
      rw [hwt]
      exact bg_wait h hP (by simp [hbg]) (by simp [hbg]) h.thread.inv (hcur (by rw [hbg]; rfl))
        (hno (by simp [hbg])) hPQ (by simp only [hbg, weight]; split <;> omega)
  | waiting d =>
    simp only [Sys.bgStep, hbg]
    split
    · rename_i hcond
      split
      · rename_i hn
        refine bg_exit h (hnone.mp hn) (by simp [hbg]) (by simp [hbg]) h.thread.inv
          (hcur (by rw [hbg]; rfl)) ?_
        simp only [hbg, weight]
        cases hr : s.cleaner.reduced with
        | true => simp
        | false => rw [hr] at hcond; simp at hcond; simp [hcond]
      · rename_i hn
        have hP : P ≠ [] := fun hh => hn (hnone.mpr hh)
        split
        · rename_i hr
          obtain ⟨x, Q, hPQ, hwt⟩ := h.thread.inv.wait hP
          rw [hwt]
          refine bg_wait h hP (by simp [hbg]) (by simp [hbg]) h.thread.inv
            (hcur (by rw [hbg]; rfl)) (hno (by simp [hbg])) hPQ ?_
          simp only [hbg, weight, hr, if_true]
          split <;> omega
        · rename_i hr
          refine bg_inner h hP (by simp [hbg]) (by simp [hbg]) h.thread.inv
            (hcur (by rw [hbg]; rfl)) (hno (by simp [hbg])) ?_
          have hr' : s.cleaner.reduced = false := by simpa using hr
          rw [hr'] at hcond
          simp at hcond
          simp [hbg, weight, hr', hcond]
    · rename_i hcond
      simp only [Bool.or_eq_true, not_or] at hcond
      simp only [BgGood]
      rcases h.thread.waits d hbg with h1 | ⟨d', rfl, h2⟩
      · exact absurd h1 hcond.1
      · intro x hx
        have := h2 x hx
        have hl := hcond.2
        simp [later] at hl
        omega
  | cleaning p t =>
    have hreg : regAt s.pools p := (h.reg p).mp (h.thread.targetReg p (by rw [hbg]; rfl))
    obtain ⟨q, hq⟩ := pool?_of_open hreg.isOpen
    have hq0 := hq
    obtain ⟨hq, ho⟩ := pool?_some hq
    have hok := h.ok p q hq
    obtain ⟨hp, hxp⟩ := h.lt hq
    obtain ⟨st, hcl, hrep⟩ := C.clean t hok.repr
    simp only [Sys.bgStep, hbg, hq0, hcl, Option.map_some, Out.ofOption, BgGood]
    have hsub : ((idleAt xss p).dropWhile (tooOld t)).Sublist (idleAt xss p) :=
      List.dropWhile_sublist _
    have hsplit : (idleAt xss p).takeWhile (tooOld t) ++ (idleAt xss p).dropWhile (tooOld t) =
      idleAt xss p := List.takeWhile_append_dropWhile
    refine ⟨xss.set p ((idleAt xss p).dropWhile (tooOld t)), A, P, ?_, by simp, by simp, ?_⟩
    · constructor
      · simp [h.len]
      · exact ok_set h.len h.ok hq
          ⟨hrep, Nat.le_trans hsub.length_le hok.bound, by rw [ho]; simp,
            hok.sorted.sublist hsub, fun x hx => hok.young x (hsub.subset hx)⟩
      · refine ⟨h.thread.inv, ?_, by simp, by simp, ?_, ?_⟩
        · simp [hno (by simp [hbg])]
        · show s.cleaner.current = some p
          rw [h.thread.target, hbg]; rfl
        · intro r hr
          exact h.thread.targetReg r (by rw [hbg]; exact hr)
      · intro r; rw [h.reg]; exact (regAt_set_iff (q' := { q with state := st }) hq rfl rfl).symm
      · intro t ht; exact (h.tasks t ht).set hq id id
      · intro r x D hx hD
        rw [idleAt_set hp] at hx
        by_cases hrp : r = p
        · subst hrp
          rw [if_pos rfl] at hx
          refine .inr (.inr (.inr (.inr
            ⟨((idleAt xss r).takeWhile (tooOld t)).map (·.2.1), D, Nat.le_refl _, ?_⟩)))
          simp only [hx, Option.map_some, Option.bind_some, id_eq, hD]
        · rw [if_neg hrp] at hx
          rcases h.cover r x D hx hD with h1 | h1 | h1 | ⟨t', h1⟩ | ⟨ev', d, _, h1⟩
          · exact .inl h1
          · exact .inr (.inl h1)
          · exact .inr (.inr (.inl h1))
          · rw [hbg] at h1; cases h1; exact absurd rfl hrp
          · rw [hbg] at h1; cases h1
      · intro a
        have h1 := h.own a
        have h3 := count_flatMap_set objs a xss p _ ((idleAt xss p).dropWhile (tooOld t)) hxp
        have h4 : List.count a (objs (idleAt xss p)) =
            List.count a (objs ((idleAt xss p).takeWhile (tooOld t))) +
              List.count a (objs ((idleAt xss p).dropWhile (tooOld t))) := by
          have h5 : ∀ X Y : Idle κ Nat, List.count a (objs (X ++ Y)) =
              List.count a (objs X) + List.count a (objs Y) := by
            intro X Y; rw [objs, List.map_append, List.count_append]; rfl
          rw [← h5, hsplit]
        simp only [places, hbg, Bg.evicted, List.count_nil] at h1 ⊢
        simp only [objs] at *
        omega
    · simp only [measure', weight, hbg]
      have hlt : weight s.now s.cleaner.reduced (.cleaned p
          (((idleAt xss p).takeWhile (tooOld t)).map (·.2.1))
          (((idleAt xss p).dropWhile (tooOld t)).head?.map (·.2.2) |>.bind id)) <
          (if t < s.now then 13 else 5) := by
        simp only [weight]
        cases hh : ((idleAt xss p).dropWhile (tooOld t)).head? with
        | none => simp [later]; split <;> omega
        | some y =>
          have hy : tooOld t y = false := by
            have := List.head?_dropWhile_not (tooOld t) (idleAt xss p)
            rw [hh] at this
            simpa using this
          simp only [Option.map_some, Option.bind_some, id_eq]
          have hyd : y.2.2 = none ∨ ∃ D, y.2.2 = some D := by
            cases y.2.2 with
            | none => exact .inl rfl
            | some D => exact .inr ⟨D, rfl⟩
          rcases hyd with hyd | ⟨D, hyd⟩
          · simp [hyd, later]; split <;> omega
          · simp [tooOld, hyd] at hy
            simp only [hyd, later, decide_eq_true_eq]
            split <;> split <;> omega
      simp only [weight] at hlt
      omega
  | cleaned p ev d =>
    have hpm := h.thread.targetReg p (by rw [hbg]; rfl)
    cases d with
    | none =>
      simp only [Sys.bgStep, hbg, BgGood]
      refine ⟨xss, A, P, ?_, by simp, by simp, ?_⟩
      · constructor
        · exact h.len
        · exact h.ok
        · refine ⟨h.thread.inv, ?_, by simp, by simp, ?_, ?_⟩
          · simp [hno (by simp [hbg])]
          · show s.cleaner.current = some p
            rw [h.thread.target, hbg]; rfl
          · intro r hr
            exact h.thread.targetReg r (by rw [hbg]; exact hr)
        · exact h.reg
        · exact h.tasks
        · intro r x D hx hD
          rcases h.cover r x D hx hD with h1 | h1 | h1 | ⟨t', h1⟩ | ⟨ev', d, _, h1⟩
          · exact .inl h1
          · exact .inr (.inl h1)
          · exact .inr (.inr (.inl h1))
          · rw [hbg] at h1; cases h1
          · rw [hbg] at h1; cases h1
        · intro a
          have h1 := h.own a
          simp only [places, hbg, Bg.evicted, List.count_nil, List.count_append] at h1 ⊢
          omega
      · simp only [measure', weight, hbg, later, if_true]
        omega
    | some d =>
      obtain ⟨c', started, A', P', bg', hs, hb, hth, hm, hbg', d', hd', hperm, hmin, hor⟩ :=
        h.thread.schedule d hpm
      have hst : started = false := by
        rw [hbg] at hb
        cases started with
        | false => rfl
        | true => simp [Bg.started] at hb
      subst hst
      simp only [Sys.bgStep, hbg, hs, Bg.started, Option.bind_some, Option.map_some, Out.ofOption,
        Bool.false_eq_true, if_false, BgGood]
      have hbb : bg' = .cleaned p ev (some d) := by
        rw [hbg] at hb; simp [Bg.started] at hb; exact hb.symm
      subst hbb
      refine ⟨xss, A', P', ?_, by simp, by simp, ?_⟩
      · constructor
        · exact h.len
        · exact h.ok
        · refine ⟨hth.inv, ?_, by simp, by simp, ?_, ?_⟩
          · have := hth.off
            simp at this
            simp [this]
          · show c'.current = some p
            rw [hth.target]; rfl
          · intro r hr
            exact hth.targetReg r hr
        · intro r; rw [hm]; exact h.reg r
        · exact h.tasks
        · intro r x D hx hD
          rcases covered_schedule hperm hmin (h.cover r x D hx hD) with h1 | h1 | h1 | ⟨t', h1⟩ |
            ⟨ev', dd, hdd, h1⟩
          · exact .inl h1
          · exact .inr (.inl h1)
          · exact .inr (.inr (.inl h1))
          · rw [hbg] at h1; cases h1
          · rw [hbg] at h1; cases h1
            exact .inl ⟨d', Nat.le_trans hd' hdd, hperm.mem_iff.mpr (by simp)⟩
        · intro a
          have h1 := h.own a
          simp only [places, hbg, Bg.evicted, List.count_nil, List.count_append] at h1 ⊢
          omega
      · have := countP_schedule (now := s.now) hperm hor
        simp only [measure', weight, hbg, later, decide_eq_true_eq]
        split at this <;> split <;> omega
  | relock p =>
    have hc : CInv { s.cleaner with current := none } A P :=
      ⟨h.thread.inv.entries, h.thread.inv.next, h.thread.inv.sorted, h.thread.inv.nodup⟩
    simp only [Sys.bgStep, hbg]
    split
    · rename_i hn
      exact bg_exit h (hnone.mp hn) (by simp [hbg]) (by simp [hbg]) hc rfl (by simp [hbg, weight])
    · rename_i hn
      have hP : P ≠ [] := fun hh => hn (hnone.mpr hh)
      exact bg_inner h hP (by simp [hbg]) (by simp [hbg]) hc rfl (hno (by simp [hbg]))
        (by simp [hbg, weight])

/-! ## Any step, any schedule -/

theorem SInv.step (h : SInv C s xss A P) (a : Act κ) : Good C (s.step a) := by
  cases a with
  | tick n => exact ⟨xss, A, P, h.tick n⟩
  | create m age reg => exact h.create m age reg
  | close p =>
    simp only [Sys.step]
    cases hq : s.pool? p with
    | none => trivial
    | some q =>
      simp only
      split
      · trivial
      · rename_i ht
        split
        · trivial
        · rename_i hc
          exact h.close hq (by simpa using ht) (by simpa using hc)
  | get p k =>
    simp only [Sys.step]
    cases hq : s.pool? p with
    | none => trivial
    | some q => exact h.get k hq
  | put p k b =>
    simp only [Sys.step]
    cases hq : s.pool? p with
    | none => trivial
    | some q =>
      simp only
      split
      · exact h.put k hq (by assumption)
      · trivial
  | drop b =>
    simp only [Sys.step]
    split
    · exact ⟨xss, A, P, h.drop (by assumption)⟩
    · trivial
  | clear p =>
    simp only [Sys.step]
    cases hq : s.pool? p with
    | none => trivial
    | some q => exact ⟨xss, A, P, h.clear hq⟩
  | run i => exact h.run i
  | bg =>
    have := h.bg
    simp only [Sys.step]
    cases hb : s.bgStep with
    | next s' =>
      rw [hb] at this
      obtain ⟨xss', A', P', h1, _⟩ := this
      exact ⟨xss', A', P', h1⟩
    | refused => trivial
    | crash => rw [hb] at this; exact this

theorem SInv.exec : ∀ (as : List (Act κ)) {s : Sys I} {xss : List (Idle κ Nat)} {A : List Nat}
    {P : List (Nat × Nat)}, SInv C s xss A P →
    ∃ s' xss' A' P', s.exec as = .next s' ∧ SInv C s' xss' A' P'
  | [], s, xss, A, P, h => ⟨s, xss, A, P, rfl, h⟩
  | a :: as, s, xss, A, P, h => by
    have := h.step a
    simp only [Sys.exec]
    cases hs : s.step a with
    | next s' =>
      rw [hs] at this
      obtain ⟨xss', A', P', h'⟩ := this
      exact SInv.exec as h'
    | refused => exact SInv.exec as h
    | crash => rw [hs] at this; exact this.elim

end Riegeli.Pool
