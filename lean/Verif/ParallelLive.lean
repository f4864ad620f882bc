import Verif.ParallelSim
/-!
# `ParallelWorker`: promises are fulfilled, every schedule ends, no deadlock unless encoding fails
-/
namespace Riegeli.Par
variable {κ α : Type} {W : CW κ} {par : Nat} {junk : Chunk}

/-- Promises of handled requests have been set. -/
structure Live (s : St κ α) : Prop where
  flushIn : ∀ i, i < s.flushes.length → Req.flush i ∈ s.hist
  flushDone : ∀ n i : Nat, s.hist[n]? = some (.flush i) → n < s.handled ∨ n = s.handled ∧ s.wpc = .fin →
    ∃ o, s.flushes[i]? = some (some o)
  annotPc : ∀ a k, s.pc = .waitAnnotate a k → Req.annotate a ∈ s.hist
  annotLt : ∀ a, Req.annotate a ∈ s.hist → a < s.annots.length
  annotDone : ∀ n a : Nat, s.hist[n]? = some (.annotate a) → n < s.handled ∨ n = s.handled ∧ s.wpc = .fin →
    s.annots[a]? = some true
  unsched : ∀ id : Nat, s.chunks[id]? = some .unscheduled → ∃ check res k, s.pc = .schedule id check res k
  actReq : s.wpc = .act ∨ s.wpc = .failing → ∀ r, s.hist[s.handled]? = some r → (∀ a, r ≠ .annotate a) ∧ r ≠ .done
  noDone : ∀ n : Nat, s.hist[n]? = some .done → s.handled < n ∨ n = s.handled ∧ ¬ s.wpc.obtained

theorem Live.init (w0 : κ) (p : Prog α) : Live (St.init W w0 p) := by
  constructor <;> simp [St.init]

/-- The writer thread moves to a program counter other than `fin`, without removing a request. -/
theorem Live.notFin {s s' : St κ α} (h : Live s) (h1 : s'.pc = s.pc) (h2 : s'.hist = s.hist) (h3 : s'.flushes = s.flushes)
    (h4 : s'.annots = s.annots) (h5 : s'.chunks = s.chunks) (h6 : s'.handled = s.handled) (h7 : s'.wpc ≠ .fin)
    (h8 : s'.wpc = .act ∨ s'.wpc = .failing → ∀ r, s.hist[s.handled]? = some r → (∀ a, r ≠ .annotate a) ∧ r ≠ .done)
    (h9 : s'.wpc.obtained → s.wpc.obtained ∨ s.hist[s.handled]? ≠ some .done) :
    Live s' := by
  constructor
  · rw [h3, h2]; exact h.flushIn
  · rw [h3, h2, h6]; exact fun n i hn ho => h.flushDone n i hn (ho.imp id (fun x => absurd x.2 h7))
  · rw [h1, h2]; exact h.annotPc
  · rw [h2, h4]; exact h.annotLt
  · rw [h4, h2, h6]; exact fun n i hn ho => h.annotDone n i hn (ho.imp id (fun x => absurd x.2 h7))
  · rw [h5, h1]; exact h.unsched
  · rw [h2, h6]; exact h8
  · rw [h2, h6]; intro n hn
    rcases h.noDone n hn with h10 | ⟨rfl, h10⟩
    · exact .inl h10
    · refine .inr ⟨rfl, fun ho => ?_⟩
      rcases h9 ho with h11 | h11
      · exact h10 h11
      · exact h11 hn

/-- The writer thread has responded to the front request. -/
theorem Live.toFin {s s' : St κ α} (h : Live s) (h1 : s'.pc = s.pc) (h2 : s'.hist = s.hist)
    (h4 : s'.annots.length = s.annots.length) (h5 : s'.chunks = s.chunks) (h6 : s'.handled = s.handled)
    (h3 : s'.flushes.length = s.flushes.length)
    (h7 : ∀ i : Nat, (∃ o, s.flushes[i]? = some (some o)) → ∃ o, s'.flushes[i]? = some (some o))
    (h8 : ∀ a : Nat, s.annots[a]? = some true → s'.annots[a]? = some true)
    (h9 : ∀ i, s.hist[s.handled]? = some (.flush i) → ∃ o, s'.flushes[i]? = some (some o))
    (h10 : ∀ a, s.hist[s.handled]? = some (.annotate a) → s'.annots[a]? = some true) (h11 : s'.wpc = .fin)
    (h12 : s.hist[s.handled]? ≠ some .done) : Live s' := by
  constructor
  · rw [h3, h2]; exact h.flushIn
  · rw [h2, h6]; intro n i hn ho
    rcases ho with ho | ⟨rfl, _⟩
    · exact h7 i (h.flushDone n i hn (.inl ho))
    · exact h9 i hn
  · rw [h1, h2]; exact h.annotPc
  · rw [h2, h4]; exact h.annotLt
  · rw [h2, h6]; intro n a hn ho
    rcases ho with ho | ⟨rfl, _⟩
    · exact h8 a (h.annotDone n a hn (.inl ho))
    · exact h10 a hn
  · rw [h5, h1]; exact h.unsched
  · rw [h11]; intro h; rcases h with h | h <;> cases h
  · rw [h2, h6]; intro n hn
    rcases h.noDone n hn with h13 | ⟨rfl, _⟩
    · exact .inl h13
    · exact absurd hn h12

theorem respond_flushes_set (s : St κ α) (r : Req) (b : Bool) (w : κ) {i : Nat}
    (h : (∃ o, s.flushes[i]? = some (some o)) ∨ r = .flush i ∧ i < s.flushes.length) :
    ∃ o, (s.respond r b w).flushes[i]? = some (some o) := by
  cases r with
  | flush j =>
    simp only [St.respond, List.getElem?_set]
    by_cases hij : j = i
    · subst hij
      have : j < s.flushes.length := by
        rcases h with ⟨o, h⟩ | h
        · exact (List.getElem?_eq_some_iff.1 h).1
        · exact h.2
      simp only [↓reduceIte, this]
      exact ⟨_, rfl⟩
    · simp only [hij, ↓reduceIte]
      rcases h with h | ⟨h, _⟩
      · exact h
      · cases h; exact absurd rfl hij
  | _ => exact h.elim id (fun x => by cases x.1)

/-- Enqueuing. -/
theorem Live.enq {w0 : κ} {s s' : St κ α} {r : Req} (hi : Inv W w0 s) (h : Live s) (h2 : s'.hist = s.hist ++ [r])
    (h6 : s'.handled = s.handled) (hw : s'.wpc = s.wpc)
    (hfl : s'.flushes = s.flushes ∧ (∀ i, r ≠ .flush i) ∨ s'.flushes = s.flushes ++ [none] ∧ r = .flush s.flushes.length)
    (han : s'.annots = s.annots ∧ (∀ a, r ≠ .annotate a) ∨
      s'.annots = s.annots ++ [false] ∧ r = .annotate s.annots.length)
    (hpc : ∀ a k, s'.pc = .waitAnnotate a k → s.pc = .waitAnnotate a k ∨ r = .annotate a)
    (hun : ∀ id : Nat, s'.chunks[id]? = some .unscheduled → ∃ check res k, s'.pc = .schedule id check res k) : Live s' := by
  have hold : ∀ (n : Nat) (x : Req), s'.hist[n]? = some x → n < s'.handled ∨ n = s'.handled ∧ s'.wpc = .fin →
      s.hist[n]? = some x ∧ (n < s.handled ∨ n = s.handled ∧ s.wpc = .fin) := by
    intro n x hn ho
    rw [h6, hw] at ho
    refine ⟨?_, ho⟩
    have hlt : n < s.hist.length := by
      rcases ho with ho | ⟨rfl, ho⟩
      · exact Nat.lt_of_lt_of_le ho hi.le
      · exact hi.handled_le (hi.busy (by rw [ho]; simp))
    rw [h2, List.getElem?_append_left hlt] at hn
    exact hn
  constructor
  · intro i hlt
    rw [h2]
    rcases hfl with ⟨h3, _⟩ | ⟨h3, h4⟩
    · rw [h3] at hlt; exact List.mem_append_left _ (h.flushIn i hlt)
    · rw [h3] at hlt
      simp only [List.length_append, List.length_singleton] at hlt
      rcases Nat.lt_or_ge i s.flushes.length with h5 | h5
      · exact List.mem_append_left _ (h.flushIn i h5)
      · rw [show i = s.flushes.length by omega, h4]; simp
  · intro n i hn ho
    obtain ⟨h3, h4⟩ := hold n _ hn ho
    obtain ⟨o, h5⟩ := h.flushDone n i h3 h4
    rcases hfl with ⟨h7, _⟩ | ⟨h7, _⟩
    · exact ⟨o, by rw [h7]; exact h5⟩
    · exact ⟨o, by rw [h7]; exact getElem?_snoc h5⟩
  · intro a k hp
    rw [h2]
    rcases hpc a k hp with h3 | h3
    · exact List.mem_append_left _ (h.annotPc a k h3)
    · rw [h3]; simp
  · intro a hm
    rw [h2] at hm
    rcases List.mem_append.1 hm with hm | hm
    · have := h.annotLt a hm
      rcases han with ⟨h3, _⟩ | ⟨h3, _⟩ <;> rw [h3]
      · exact this
      · simp only [List.length_append]; omega
    · have hm := List.mem_singleton.1 hm
      rcases han with ⟨_, h3⟩ | ⟨h3, h4⟩
      · exact absurd hm.symm (h3 a)
      · rw [h4] at hm; cases hm; rw [h3]; simp
  · intro n a hn ho
    obtain ⟨h3, h4⟩ := hold n _ hn ho
    have h5 := h.annotDone n a h3 h4
    rcases han with ⟨h7, _⟩ | ⟨h7, _⟩
    · rw [h7]; exact h5
    · rw [h7]; exact getElem?_snoc h5
  · exact hun
  · rw [hw, h6]; intro ha x hx
    have hlt : s.handled < s.hist.length := hi.handled_le (hi.busy (by rcases ha with ha | ha <;> rw [ha] <;> simp))
    rw [h2, List.getElem?_append_left hlt] at hx
    exact h.actReq ha x hx
  · rw [hw, h6]; intro n hn
    rcases Nat.lt_or_ge n s.hist.length with hlt | hge
    · rw [h2, List.getElem?_append_left hlt] at hn
      exact h.noDone n hn
    · rcases Nat.lt_or_ge s.handled n with h3 | h3
      · exact .inl h3
      · have hle := hi.le
        refine .inr ⟨by omega, fun ho => ?_⟩
        have := hi.handled_le (hi.busy (by intro he; rw [he] at ho; exact ho))
        omega

/-- Only the program counter of the client and the chunks change. -/
theorem Live.setPc {s s' : St κ α} (h : Live s) (h2 : s'.hist = s.hist) (h3 : s'.flushes = s.flushes)
    (h4 : s'.annots = s.annots) (h6 : s'.handled = s.handled) (h7 : s'.wpc = s.wpc)
    (h8 : ∀ a k, s'.pc = .waitAnnotate a k → s.pc = .waitAnnotate a k)
    (hun : ∀ id : Nat, s'.chunks[id]? = some .unscheduled → ∃ check res k, s'.pc = .schedule id check res k) : Live s' :=
  ⟨h2 ▸ h3 ▸ h.flushIn, by rw [h2, h3, h6, h7]; exact h.flushDone, fun a k hp => h2 ▸ h.annotPc a k (h8 a k hp),
    h2 ▸ h4 ▸ h.annotLt, by rw [h2, h4, h6, h7]; exact h.annotDone, hun,
    by rw [h2, h6, h7]; exact h.actReq, by rw [h2, h6, h7]; exact h.noDone⟩

theorem set_unsched {l : List CSt} {i j : Nat} {x : CSt} (hx : x ≠ .unscheduled) (h : (l.set i x)[j]? = some .unscheduled) :
    l[j]? = some .unscheduled ∧ i ≠ j := by
  rw [List.getElem?_set] at h
  split at h
  · split at h
    · exact absurd (Option.some.inj h) hx
    · cases h
  · rename_i hne; exact ⟨h, hne⟩

theorem Live.step {w0 : κ} {s s' : St κ α} (hi : Inv W w0 s) (h : Live s) (hs : Step W par junk s s') : Live s' := by
  cases hs with
  | writer hs =>
    cases hs with
    | take hw hq => exact h.notFin rfl rfl rfl rfl rfl rfl (by simp) (by simp) (fun h => h.elim)
    | done hw hq => exact h.notFin rfl rfl rfl rfl rfl rfl (by simp) (by simp) (fun h => h.elim)
    | @annotate a q hw hq =>
      have hf := (take_succ_of_drop (hq ▸ hi.queue).symm).2.1
      have hlt := h.annotLt a (List.mem_of_getElem? hf)
      refine h.toFin rfl rfl (by simp) rfl rfl rfl (fun _ h => h) ?_ ?_ ?_ rfl (by rw [hf]; simp)
      · intro b hb
        simp only [List.getElem?_set]
        split
        · rename_i he; subst he; simp [hlt]
        · exact hb
      · intro i hi'; rw [hf] at hi'; cases hi'
      · intro b hb; rw [hf] at hb; cases hb; simp [hlt]
    | @chunk id res c q hw hq hc =>
      have hf := (take_succ_of_drop (hq ▸ hi.queue).symm).2.1
      by_cases ho : s.ok = true
      · exact h.notFin rfl rfl rfl rfl rfl rfl (by simp [ho]) (fun _ r hr => by rw [hf] at hr; cases hr; simp)
          (fun _ => .inr (by rw [hf]; simp))
      · exact h.toFin rfl rfl rfl rfl rfl rfl (fun _ h => h) (fun _ h => h) (fun i hi => by rw [hf] at hi; cases hi)
          (fun i hi => by rw [hf] at hi; cases hi) (by simp [ho]) (by rw [hf]; simp)
    | @pad p q hw hq =>
      have hf := (take_succ_of_drop (hq ▸ hi.queue).symm).2.1
      by_cases ho : s.ok = true
      · exact h.notFin rfl rfl rfl rfl rfl rfl (by simp [ho]) (fun _ r hr => by rw [hf] at hr; cases hr; simp)
          (fun _ => .inr (by rw [hf]; simp))
      · exact h.toFin rfl rfl rfl rfl rfl rfl (fun _ h => h) (fun _ h => h) (fun i hi => by rw [hf] at hi; cases hi)
          (fun i hi => by rw [hf] at hi; cases hi) (by simp [ho]) (by rw [hf]; simp)
    | flushOk hw hq ho =>
      have hf := (take_succ_of_drop (hq ▸ hi.queue).symm).2.1
      exact h.notFin rfl rfl rfl rfl rfl rfl (by simp) (fun _ r hr => by rw [hf] at hr; cases hr; simp)
          (fun _ => .inr (by rw [hf]; simp))
    | @flushFail i q hw hq ho =>
      have hf := (take_succ_of_drop (hq ▸ hi.queue).symm).2.1
      have hlt := hi.flushReq i (List.mem_of_getElem? hf)
      refine h.toFin (by simp) (by simp) (by simp) (by simp) (by simp) (respond_flushes_length _ _ _ _) ?_ (by simp) ?_ ?_ rfl (by rw [hf]; simp)
      · intro j hj; exact respond_flushes_set s _ _ _ (.inl hj)
      · intro j hj; rw [hf] at hj; cases hj; exact respond_flushes_set s _ _ _ (.inr ⟨rfl, hlt⟩)
      · intro j hj; rw [hf] at hj; cases hj
    | @act r q w hw hq hp =>
      have hf := (take_succ_of_drop (hq ▸ hi.queue).symm).2.1
      refine h.toFin (by simp) (by simp) (by simp) (by simp) (by simp) (respond_flushes_length _ _ _ _) ?_ (by simp) ?_ ?_ rfl
        (fun hd => (h.actReq (.inl hw) _ hd).2 rfl)
      · intro j hj; exact respond_flushes_set s _ _ _ (.inl hj)
      · intro j hj; rw [hf] at hj; cases hj
        exact respond_flushes_set s _ _ _ (.inr ⟨rfl, hi.flushReq j (List.mem_of_getElem? hf)⟩)
      · intro a ha; rw [hf] at ha; cases ha
        exact absurd rfl ((h.actReq (.inl hw) _ hf).1 a)
    | @actFail r q w hw hq hp =>
      exact h.notFin rfl rfl rfl rfl rfl rfl (by simp) (fun _ => h.actReq (.inl hw)) (fun _ => .inl (by rw [hw]; trivial))
    | @fail r q hw hq =>
      have hf := (take_succ_of_drop (hq ▸ hi.queue).symm).2.1
      refine h.toFin (by simp) (by simp) (by simp) (by simp) (by simp) (respond_flushes_length _ _ _ _) ?_ (by simp) ?_ ?_ rfl
        (fun hd => (h.actReq (.inr hw) _ hd).2 rfl)
      · intro j hj; exact respond_flushes_set s _ _ _ (.inl hj)
      · intro j hj; rw [hf] at hj; cases hj
        exact respond_flushes_set s _ _ _ (.inr ⟨rfl, hi.flushReq j (List.mem_of_getElem? hf)⟩)
      · intro a ha; rw [hf] at ha; cases ha
        exact absurd rfl ((h.actReq (.inr hw) _ hf).1 a)
    | @fin r q hw hq =>
      have hle : ∀ n : Nat, n < s.handled + 1 ∨ n = s.handled + 1 ∧ (WPc.idle = .fin) →
          n < s.handled ∨ n = s.handled ∧ s.wpc = .fin := by
        intro n hn
        rcases hn with hn | ⟨_, hn⟩
        · rcases Nat.lt_or_ge n s.handled with h1 | h1
          · exact .inl h1
          · exact .inr ⟨by omega, hw⟩
        · cases hn
      refine ⟨h.flushIn, fun n i hn ho => h.flushDone n i hn (hle n ho), h.annotPc, h.annotLt,
        fun n i hn ho => h.annotDone n i hn (hle n ho), h.unsched, by simp, ?_⟩
      intro n hn
      rcases h.noDone n hn with h1 | ⟨rfl, h1⟩
      · have h1 : s.handled < n := h1
        rcases Nat.lt_or_ge (s.handled + 1) n with h2 | h2
        · exact .inl h2
        · exact .inr ⟨by show n = s.handled + 1; omega, fun h => h⟩
      · exact absurd (by rw [hw]; trivial) h1
  | task hs =>
    cases hs with
    | @annotate id hx hcap =>
      refine h.enq (r := .annotate s.annots.length) hi rfl rfl rfl (.inl ⟨rfl, by simp⟩) (.inr ⟨rfl, rfl⟩)
        (fun a k h => .inl h) ?_
      intro id' hu
      exact h.unsched id' (set_unsched (by simp) hu).1
    | _ =>
      refine h.setPc rfl rfl rfl rfl rfl (fun _ _ h => h) ?_
      intro id' hu
      exact h.unsched id' (set_unsched (by simp) hu).1
  | client hs =>
    cases hs with
    | @chunk src k hp =>
      refine h.setPc rfl rfl rfl rfl rfl (fun a k' he => ?_) (fun id hu => ?_)
      · exfalso; simp only at he; split at he <;> cases he
      · obtain ⟨_, _, _, he⟩ := h.unsched id hu; rw [hp] at he; cases he
    | @enqChunk src k hp hcap =>
      refine h.enq (r := .chunk s.chunks.length src.result) hi rfl rfl rfl (.inl ⟨rfl, by simp⟩) (.inl ⟨rfl, by simp⟩) ?_ ?_
      · intro a k' he; exfalso; cases src <;> simp [Src.enqueued] at he
      · intro id hu
        simp only at hu
        rcases Nat.lt_or_ge id s.chunks.length with hlt | hge
        · rw [List.getElem?_append_left hlt] at hu
          obtain ⟨_, _, _, he⟩ := h.unsched id hu; rw [hp] at he; cases he
        · have := (List.getElem?_eq_some_iff.1 hu).1
          simp at this
          have : id = s.chunks.length := by omega
          subst this
          cases src with
          | now c => simp [Src.enqueued] at hu
          | metadata res => exact ⟨_, _, _, rfl⟩
          | records res => exact ⟨_, _, _, rfl⟩
    | @schedule id check res k hp =>
      refine h.setPc rfl rfl rfl rfl rfl (fun a k' he => by simp at he) (fun id' hu => ?_)
      obtain ⟨h1, h2⟩ := set_unsched (by simp) hu
      obtain ⟨_, _, _, he⟩ := h.unsched id' h1
      rw [hp] at he
      cases he; exact absurd rfl h2
    | @pad p k hp =>
      refine h.setPc rfl rfl rfl rfl rfl (fun a k' he => ?_) (fun id hu => ?_)
      · exfalso; simp only at he; split at he <;> cases he
      · obtain ⟨_, _, _, he⟩ := h.unsched id hu; rw [hp] at he; cases he
    | @enqPad p k hp hcap =>
      refine h.enq (r := .pad p) hi rfl rfl rfl (.inl ⟨rfl, by simp⟩) (.inl ⟨rfl, by simp⟩) (by simp) (fun id hu => ?_)
      obtain ⟨_, _, _, he⟩ := h.unsched id hu; rw [hp] at he; cases he
    | @futureFlush k hp hcap =>
      refine h.enq (r := .flush s.flushes.length) hi rfl rfl rfl (.inr ⟨rfl, rfl⟩) (.inl ⟨rfl, by simp⟩) (by simp) (fun id hu => ?_)
      obtain ⟨_, _, _, he⟩ := h.unsched id hu; rw [hp] at he; cases he
    | @fail k hp hcap =>
      refine h.enq (r := .annotate s.annots.length) hi rfl rfl rfl (.inl ⟨rfl, by simp⟩) (.inr ⟨rfl, rfl⟩) ?_ (fun id hu => ?_)
      · intro a k' he; simp only [Pc.waitAnnotate.injEq] at he; exact .inr (by rw [he.1])
      · obtain ⟨_, _, _, he⟩ := h.unsched id hu; rw [hp] at he; cases he
    | @close a hp =>
      refine h.enq (r := .done) hi rfl rfl rfl (.inl ⟨rfl, by simp⟩) (.inl ⟨rfl, by simp⟩) (by simp) (fun id hu => ?_)
      obtain ⟨_, _, _, he⟩ := h.unsched id hu; rw [hp] at he; cases he
    | getFlush hp => 
      refine h.setPc rfl rfl rfl rfl rfl (fun a k' he => by simp at he) (fun id hu => ?_)
      obtain ⟨_, _, _, he⟩ := h.unsched id hu; rw [hp] at he; cases he
    | getNoFlush hp => 
      refine h.setPc rfl rfl rfl rfl rfl (fun a k' he => by simp at he) (fun id hu => ?_)
      obtain ⟨_, _, _, he⟩ := h.unsched id hu; rw [hp] at he; cases he
    | chunkBegin hp => 
      refine h.setPc rfl rfl rfl rfl rfl (fun a k' he => by simp at he) (fun id hu => ?_)
      obtain ⟨_, _, _, he⟩ := h.unsched id hu; rw [hp] at he; cases he
    | getPos hp => 
      refine h.setPc rfl rfl rfl rfl rfl (fun a k' he => by simp at he) (fun id hu => ?_)
      obtain ⟨_, _, _, he⟩ := h.unsched id hu; rw [hp] at he; cases he
    | getNoPos hp => 
      refine h.setPc rfl rfl rfl rfl rfl (fun a k' he => by simp at he) (fun id hu => ?_)
      obtain ⟨_, _, _, he⟩ := h.unsched id hu; rw [hp] at he; cases he
    | ok hp => 
      refine h.setPc rfl rfl rfl rfl rfl (fun a k' he => by simp at he) (fun id hu => ?_)
      obtain ⟨_, _, _, he⟩ := h.unsched id hu; rw [hp] at he; cases he
    | answer hp => 
      refine h.setPc rfl rfl rfl rfl rfl (fun a k' he => by simp at he) (fun id hu => ?_)
      obtain ⟨_, _, _, he⟩ := h.unsched id hu; rw [hp] at he; cases he
    | setFail hp => 
      refine h.setPc rfl rfl rfl rfl rfl (fun a k' he => by simp at he) (fun id hu => ?_)
      obtain ⟨_, _, _, he⟩ := h.unsched id hu; rw [hp] at he; cases he
    | closed hp => 
      refine h.setPc rfl rfl rfl rfl rfl (fun a k' he => by simp at he) (fun id hu => ?_)
      obtain ⟨_, _, _, he⟩ := h.unsched id hu; rw [hp] at he; cases he

theorem Live.reach {w0 : κ} {p : Prog α} {s : St κ α} (h : Reach W par junk (St.init W w0 p) s) : Live s := by
  induction h with
  | refl => exact Live.init w0 p
  | step hr hs ih => exact ih.step (Inv.reach hr) hs

/-! ## Progress -/

/-- A chunk whose encoding does not fail can be waited for. -/
theorem chunk_progress {w0 : κ} {s : St κ α} (hi : Inv W w0 s) (hl : Live s) {id : Nat} {res : Option Chunk}
    (hm : Req.chunk id res ∈ s.hist) (hne : res ≠ none) :
    (∃ c, s.chunks[id]? = some (.ready c)) ∨ ∃ s', Step W par junk s s' := by
  obtain ⟨st, h1, h2⟩ := hi.chunks id res hm
  cases st with
  | unscheduled =>
    obtain ⟨check, r, k, hp⟩ := hl.unsched id h1
    exact .inr ⟨_, .client (.schedule hp)⟩
  | start check r =>
    simp only [Match] at h2
    subst h2
    cases r with
    | none => exact absurd rfl hne
    | some c =>
      by_cases ho : check = true → s.ok = true
      · exact .inr ⟨_, .task (.encode h1 ho)⟩
      · have hc : check = true := by
          cases check with
          | true => rfl
          | false => exact absurd (fun h => by cases h) ho
        subst hc
        have : s.ok = false := by
          cases hk : s.ok with
          | false => rfl
          | true => exact absurd (fun _ => hk) ho
        exact .inr ⟨_, .task (.skip h1 this)⟩
  | annotating => exact absurd h2 hne
  | waiting a => exact absurd h2 hne
  | failing => exact absurd h2 hne
  | encoded c => exact .inr ⟨_, .task (.header h1)⟩
  | headerSet c => exact .inr ⟨_, .task (.chunk h1)⟩
  | ready c => exact .inl ⟨c, h1⟩

theorem resolve_total {chunks : List CSt} {acts : List Act} (h1 : ∀ id res, Act.chunk id res ∈ acts →
      ∃ c, chunks[id]? = some (.ready c))
    (h2 : ∀ p, Act.pad p ∈ acts → ∀ pos, posAfterPadding pos p ≠ none) : ∀ pos, ∃ p, resolve chunks pos acts = some p := by
  induction acts with
  | nil => intro pos; exact ⟨pos, rfl⟩
  | cons a acts ih =>
    have ih := ih (fun id res hm => h1 id res (List.mem_cons_of_mem _ hm)) (fun p hm => h2 p (List.mem_cons_of_mem _ hm))
    intro pos
    cases a with
    | chunk id res =>
      obtain ⟨c, hc⟩ := h1 id res (by simp)
      simp only [resolve, hc, Option.bind_some, CSt.header]
      exact ih _
    | pad p =>
      simp only [resolve]
      cases hx : posAfterPadding pos p with
      | none => exact absurd hx (h2 p (by simp) pos)
      | some y => exact ih y

/-- No deadlock, if no encoding fails and futures of positions are fulfilled when everything has been handled. -/
theorem progress_of {w0 : κ} {p : Prog α} {s : St κ α} (hpar : 0 < par)
    (hr : Reach W par junk (St.init W w0 p) s) (hchunk : ∀ id res, Req.chunk id res ∈ s.hist → res ≠ none)
    (hget : (∀ id res, Req.chunk id res ∈ s.hist → ∃ c, s.chunks[id]? = some (.ready c)) →
      ∀ i o, s.snaps[i]? = some o → ∃ y, s.position i = some y) :
    (∃ a b, s.pc = .closed a b) ∨ ∃ s', Step W par junk s s' := by
  have hi := Inv.reach hr
  have hl := Live.reach hr
  by_cases hq : s.queue = []
  · -- everything has been handled
    have hidle : s.wpc = .idle := by
      by_cases h : s.wpc = .idle
      · exact h
      · exact absurd hq (hi.busy h)
    have hall : ∀ n : Nat, n < s.hist.length → n < s.handled := by
      intro n hn
      have := hi.queue; rw [hq] at this
      have := congrArg List.length this
      rw [List.length_drop, List.length_nil] at this
      omega
    have hcap : s.queue.length < par := by rw [hq]; exact hpar
    cases hpc : s.pc with
    | closed a b => exact .inl ⟨a, b, rfl⟩
    | enqChunk src k => exact .inr ⟨_, .client (.enqChunk hpc hcap)⟩
    | schedule id check res k => exact .inr ⟨_, .client (.schedule hpc)⟩
    | enqPad p k => exact .inr ⟨_, .client (.enqPad hpc hcap)⟩
    | waitAnnotate a k =>
      obtain ⟨n, hn⟩ := List.getElem?_of_mem (hl.annotPc a k hpc)
      exact .inr ⟨_, .client (.answer hpc (hl.annotDone n a hn (.inl (hall n (List.getElem?_eq_some_iff.1 hn).1))))⟩
    | setFail k => exact .inr ⟨_, .client (.setFail hpc)⟩
    | waitDone a =>
      obtain ⟨pre, post, he, _, _⟩ := hi.closing (by rw [hpc]; trivial)
      have hd : s.hist[pre.length]? = some .done := by rw [he]; simp
      have h1 := hall _ (List.getElem?_eq_some_iff.1 hd).1
      rcases hl.noDone _ hd with h2 | ⟨h2, _⟩ <;> omega
    | run p =>
      cases p with
      | chunk src k => exact .inr ⟨_, .client (.chunk hpc)⟩
      | pad p k => exact .inr ⟨_, .client (.pad hpc)⟩
      | futureFlush k => exact .inr ⟨_, .client (.futureFlush hpc hcap)⟩
      | getFlush i k =>
        cases hf : s.flushes[i]? with
        | none => exact .inr ⟨_, .client (.getNoFlush hpc hf)⟩
        | some o =>
          obtain ⟨n, hn⟩ := List.getElem?_of_mem (hl.flushIn i (List.getElem?_eq_some_iff.1 hf).1)
          obtain ⟨⟨b, w⟩, ho⟩ := hl.flushDone n i hn (.inl (hall n (List.getElem?_eq_some_iff.1 hn).1))
          exact .inr ⟨_, .client (.getFlush hpc ho)⟩
      | chunkBegin k => exact .inr ⟨_, .client (.chunkBegin hpc)⟩
      | getPos i k =>
        cases hf : s.snaps[i]? with
        | none => exact .inr ⟨_, .client (.getNoPos hpc hf)⟩
        | some o =>
          obtain ⟨y, hy⟩ := hget (by
            intro id res h1
            obtain ⟨n, hn⟩ := List.getElem?_of_mem h1
            exact hi.ready n _ _ hn (.inl (hall n (List.getElem?_eq_some_iff.1 hn).1))) i o hf
          exact .inr ⟨_, .client (.getPos hpc (p := y) hy)⟩
      | ok k => exact .inr ⟨_, .client (.ok hpc)⟩
      | fail k => exact .inr ⟨_, .client (.fail hpc hcap)⟩
      | close a => exact .inr ⟨_, .client (.close hpc)⟩
  · cases hqe : s.queue with
    | nil => exact absurd hqe hq
    | cons r q =>
      cases hw : s.wpc with
      | idle => exact .inr ⟨_, .writer (.take hw hq)⟩
      | act =>
        cases hx : perform W s.chunks s.cw r with
        | mk w b =>
          cases b with
          | true => exact .inr ⟨_, .writer (.act hw hqe hx)⟩
          | false => exact .inr ⟨_, .writer (.actFail hw hqe hx)⟩
      | failing => exact .inr ⟨_, .writer (.fail hw hqe)⟩
      | fin => exact .inr ⟨_, .writer (.fin hw hqe)⟩
      | exited =>
        have hd := hi.exited.2 hw
        cases hpc : s.pc with
        | closed a b => exact .inl ⟨a, b, rfl⟩
        | waitDone a => exact .inr ⟨_, .client (.closed hpc hd)⟩
        | _ =>
          have := (hi.notClosing (by rw [hpc]; exact id)).2
          rw [hd] at this; cases this
      | check =>
        cases r with
        | done => exact .inr ⟨_, .writer (.done hw hqe)⟩
        | annotate a => exact .inr ⟨_, .writer (.annotate hw hqe)⟩
        | pad p => exact .inr ⟨_, .writer (.pad hw hqe)⟩
        | flush i =>
          cases ho : s.ok with
          | true => exact .inr ⟨_, .writer (.flushOk hw hqe ho)⟩
          | false => exact .inr ⟨_, .writer (.flushFail hw hqe ho)⟩
        | chunk id res =>
          have hm : Req.chunk id res ∈ s.hist := by
            have : Req.chunk id res ∈ s.queue := by rw [hqe]; simp
            rw [hi.queue] at this; exact List.mem_of_mem_drop this
          rcases chunk_progress (par := par) (junk := junk) hi hl hm (hchunk id res hm) with ⟨c, hc⟩ | h
          · exact .inr ⟨_, .writer (.chunk hw hqe hc)⟩
          · exact .inr h

/-- No deadlock, if no encoding of the program may fail and computing positions after its paddings ends. -/
theorem progress {w0 : κ} {p : Prog α} {s : St κ α} (hpar : 0 < par)
    (hp : p.All (fun src => src.result ≠ none) (fun pad => ∀ pos, posAfterPadding pos pad ≠ none))
    (hr : Reach W par junk (St.init W w0 p) s) : (∃ a b, s.pc = .closed a b) ∨ ∃ s', Step W par junk s s' := by
  have hg := ProgInv.reach hp hr
  refine progress_of hpar hr ?_ ?_
  · intro id res hm
    obtain ⟨src, h1, rfl⟩ := hg.chunk id res hm
    exact h1
  · intro hall i o hf
    obtain ⟨pos, acts⟩ := o
    have hs := hg.snaps pos acts (List.mem_of_getElem? hf)
    obtain ⟨y, hy⟩ := resolve_total (chunks := s.chunks) (acts := acts)
      (by
        intro id res hm
        obtain ⟨r, h1, h2⟩ := hs _ hm
        cases r <;> simp only [Req.act, Option.some.injEq, Act.chunk.injEq, reduceCtorEq] at h2
        obtain ⟨rfl, rfl⟩ := h2
        exact hall _ _ h1)
      (by
        intro p hm
        obtain ⟨r, h1, h2⟩ := hs _ hm
        cases r <;> simp only [Req.act, Option.some.injEq, Act.pad.injEq, reduceCtorEq] at h2
        subst h2
        exact hg.pad _ h1) pos
    exact ⟨y, by simp only [St.position, hf]; exact hy⟩

/-- If all chunks are the intended ones, a position resolves. -/
theorem resolve_of_fold {chunks : List CSt} : ∀ {acts : List Act} {pos y : Nat},
    (∀ id res, Act.chunk id res ∈ acts → ∃ c, chunks[id]? = some (.ready c) ∧ res = some c) →
    foldActs pos acts = some y → resolve chunks pos acts = some y
  | [], pos, y, _, h => h
  | .chunk id res :: acts, pos, y, h1, h => by
    obtain ⟨c, h2, rfl⟩ := h1 id res (by simp)
    simp only [resolve, h2, Option.bind_some, CSt.header]
    exact resolve_of_fold (fun id res hm => h1 id res (List.mem_cons_of_mem _ hm)) h
  | .pad p :: acts, pos, y, h1, h => by
    simp only [resolve, foldActs] at h ⊢
    cases hx : posAfterPadding pos p with
    | none => rw [hx] at h; cases h
    | some z =>
      rw [hx] at h
      exact resolve_of_fold (fun id res hm => h1 id res (List.mem_cons_of_mem _ hm)) h

/-- Futures of positions are fulfilled when the serial worker succeeds and all chunks have been encoded. -/
theorem Sim.position_all {w0 : κ} {f : Ser κ × α} {σ : Ser κ} {s : St κ α} (hi : Inv W w0 s)
    {G : Src → Prop} {Q : Nat → Prop} (hg : ProgInv G Q s) (h : Sim W w0 f σ s)
    (hall : ∀ id res, Req.chunk id res ∈ s.hist → ∃ c, s.chunks[id]? = some (.ready c)) {i : Nat} {o : Nat × List Act}
    (hf : s.snaps[i]? = some o) : ∃ y, s.position i = some y := by
  obtain ⟨pos, acts⟩ := o
  obtain ⟨y, _, hy⟩ := h.sval i pos acts hf
  refine ⟨y, ?_⟩
  simp only [St.position, hf]
  refine resolve_of_fold ?_ hy
  intro id res hm
  obtain ⟨r, h1, h2⟩ := hg.snaps pos acts (List.mem_of_getElem? hf) _ hm
  cases r <;> simp only [Req.act, Option.some.injEq, Act.chunk.injEq, reduceCtorEq] at h2
  obtain ⟨rfl, rfl⟩ := h2
  obtain ⟨c, hc⟩ := hall _ _ h1
  obtain ⟨st, h3, h4⟩ := hi.chunks _ _ h1
  rw [hc] at h3; cases h3
  rcases h4 with h4 | h4
  · exact ⟨c, hc, h4⟩
  · rw [h.ok hi] at h4; cases h4

/-- No deadlock, if the serial worker succeeds. -/
theorem progress_serial {I : κ → Prop} {G : Chunk → Prop} {Q : Nat → Prop} (hW : W.Lawful I G Q) {w0 : κ} (hI : I w0)
    (hpar : 0 < par) {p : Prog α} (hp : p.All (fun src => ∀ c, src.result = some c → G c) Q)
    {f : Ser κ × α} (hf : p.serial W ⟨w0, [], []⟩ = some f) {s : St κ α}
    (hr : Reach W par junk (St.init W w0 p) s) : (∃ a b, s.pc = .closed a b) ∨ ∃ s', Step W par junk s s' := by
  obtain ⟨σ, hs⟩ := Sim.reach hW hI hp hf hr
  have hi := Inv.reach hr
  refine progress_of hpar hr ?_ (fun hall i o ho => hs.position_all hi (ProgInv.reach hp hr) hall ho)
  rintro id res hm rfl
  have := execAll_none (W := W) (w := w0) hm
  rw [hs.exec] at this; cases this

/-! ## Termination -/

/-- How many steps the task may still make, counting what its request costs the writer thread. -/
def CSt.weight : CSt → Nat
  | .unscheduled => 0
  | .start _ _ => 12
  | .annotating => 11
  | .waiting _ => 4
  | .failing => 3
  | .encoded _ => 2
  | .headerSet _ => 1
  | .ready _ => 0

def WPc.weight : WPc → Nat
  | .idle => 5
  | .check => 4
  | .act => 3
  | .failing => 2
  | .fin => 1
  | .exited => 0

/-- Bound of the number of steps of threads other than the client, unless the client makes a step. -/
def St.weight (s : St κ α) : Nat := 6 * s.queue.length + s.wpc.weight + (s.chunks.map CSt.weight).sum

theorem weight_set {l : List CSt} {i : Nat} {x y : CSt} (h : l[i]? = some x) :
    ((l.set i y).map CSt.weight).sum + x.weight = (l.map CSt.weight).sum + y.weight := by
  induction l generalizing i with
  | nil => simp at h
  | cons z l ih =>
    cases i with
    | zero =>
      simp only [List.getElem?_cons_zero, Option.some.injEq] at h
      subst h
      simp only [List.set_cons_zero, List.map_cons, List.sum_cons]; omega
    | succ i =>
      simp only [List.getElem?_cons_succ] at h
      have := ih h
      simp only [List.set_cons_succ, List.map_cons, List.sum_cons]; omega

theorem writer_weight {s s' : St κ α} (hs : WStep W s s') : s'.weight < s.weight := by
  cases hs with
  | chunk hw hq hc => simp only [St.weight, hw]; split <;> simp [WPc.weight]
  | pad hw hq => simp only [St.weight, hw]; split <;> simp [WPc.weight]
  | fin hw hq => simp only [St.weight, hw, hq, WPc.weight, List.length_cons]; omega
  | take hw => simp [St.weight, hw, WPc.weight]
  | done hw => simp [St.weight, hw, WPc.weight]
  | annotate hw => simp [St.weight, hw, WPc.weight]
  | flushOk hw => simp [St.weight, hw, WPc.weight]
  | flushFail hw => simp [St.weight, hw, WPc.weight]
  | act hw => simp [St.weight, hw, WPc.weight]
  | actFail hw => simp [St.weight, hw, WPc.weight]
  | fail hw => simp [St.weight, hw, WPc.weight]

theorem task_weight {s s' : St κ α} (hs : TStep par junk s s') : s'.weight < s.weight := by
  cases hs with
  | @annotate id hx hcap =>
    have := weight_set (y := .waiting s.annots.length) hx
    simp only [CSt.weight] at this
    simp only [St.weight, St.enqueue, List.length_append, List.length_singleton]; omega
  | @skip id res hx ho =>
    have := weight_set (y := .encoded junk) hx
    simp only [CSt.weight] at this
    simp only [St.weight]; omega
  | @encode id check c hx ho =>
    have := weight_set (y := .encoded c) hx
    simp only [CSt.weight] at this
    simp only [St.weight]; omega
  | @encodeFail id check hx ho =>
    have := weight_set (y := .annotating) hx
    simp only [CSt.weight] at this
    simp only [St.weight]; omega
  | @answer id a hx ha =>
    have := weight_set (y := .failing) hx
    simp only [CSt.weight] at this
    simp only [St.weight]; omega
  | @fail id hx =>
    have := weight_set (y := .encoded junk) hx
    simp only [CSt.weight] at this
    simp only [St.weight]; omega
  | @header id c hx =>
    have := weight_set (y := .headerSet c) hx
    simp only [CSt.weight] at this
    simp only [St.weight]; omega
  | @chunk id c hx =>
    have := weight_set (y := .ready c) hx
    simp only [CSt.weight] at this
    simp only [St.weight]; omega

/-- Every schedule from the state is finite. -/
abbrev Ends (W : CW κ) (par : Nat) (junk : Chunk) (s : St κ α) : Prop :=
  Acc (fun b a => Step W par junk a b) s

/-- What a step of the client may do to its program counter. -/
inductive Pc.Next : Pc α → Pc α → Prop
  | chunk {src : Src} {k : Bool → Prog α} : Next (.run (.chunk src k)) (.enqChunk src k)
  | chunkFail {src : Src} {k : Bool → Prog α} : Next (.run (.chunk src k)) (.run (k false))
  | enqNow {src : Src} {k : Bool → Prog α} : Next (.enqChunk src k) (.run (k true))
  | enqChunk {src : Src} {k : Bool → Prog α} {id : Nat} {check : Bool} {res : Option Chunk} :
      Next (.enqChunk src k) (.schedule id check res k)
  | schedule {id : Nat} {check : Bool} {res : Option Chunk} {k : Bool → Prog α} :
      Next (.schedule id check res k) (.run (k true))
  | pad {p : Nat} {k : Bool → Prog α} : Next (.run (.pad p k)) (.enqPad p k)
  | padFail {p : Nat} {k : Bool → Prog α} : Next (.run (.pad p k)) (.run (k false))
  | enqPad {p : Nat} {k : Bool → Prog α} : Next (.enqPad p k) (.run (k true))
  | futureFlush {k : Nat → Prog α} {i : Nat} : Next (.run (.futureFlush k)) (.run (k i))
  | getFlush {i : Nat} {k : Bool → Prog α} {b : Bool} : Next (.run (.getFlush i k)) (.run (k b))
  | chunkBegin {k : Nat → Prog α} {i : Nat} : Next (.run (.chunkBegin k)) (.run (k i))
  | getPos {i : Nat} {k : Nat → Prog α} {p : Nat} : Next (.run (.getPos i k)) (.run (k p))
  | ok {k : Bool → Prog α} {b : Bool} : Next (.run (.ok k)) (.run (k b))
  | fail {k : Prog α} {a : Nat} : Next (.run (.fail k)) (.waitAnnotate a k)
  | answer {a : Nat} {k : Prog α} : Next (.waitAnnotate a k) (.setFail k)
  | setFail {k : Prog α} : Next (.setFail k) (.run k)
  | close {a : α} : Next (.run (.close a)) (.waitDone a)
  | closed {a : α} {b : Bool} : Next (.waitDone a) (.closed a b)

theorem CStep.next {s s' : St κ α} (hs : CStep par s s') : Pc.Next s.pc s'.pc := by
  cases hs with
  | chunk h => rw [h]; dsimp only; split; (· exact .chunk);(· exact .chunkFail)
  | @enqChunk src k h hcap => rw [h]; cases src; (· exact .enqNow);(· exact .enqChunk);(· exact .enqChunk)
  | schedule h => rw [h]; exact .schedule
  | pad h => rw [h]; dsimp only; split; (· exact .pad);(· exact .padFail)
  | enqPad h => rw [h]; exact .enqPad
  | futureFlush h => rw [h]; exact .futureFlush
  | getFlush h => rw [h]; exact .getFlush
  | getNoFlush h => rw [h]; exact .getFlush
  | chunkBegin h => rw [h]; exact .chunkBegin
  | getPos h => rw [h]; exact .getPos
  | getNoPos h => rw [h]; exact .getPos
  | ok h => rw [h]; exact .ok
  | fail h => rw [h]; exact .fail
  | answer h => rw [h]; exact .answer
  | setFail h => rw [h]; exact .setFail
  | close h => rw [h]; exact .close
  | closed h => rw [h]; exact .closed

theorem ends_of_client {pc : Pc α} (h : ∀ pc', Pc.Next pc pc' → ∀ s : St κ α, s.pc = pc' → Ends W par junk s) :
    ∀ s : St κ α, s.pc = pc → Ends W par junk s := by
  intro s
  induction hn : s.weight using Nat.strongRecOn generalizing s with
  | _ n ih =>
  intro hp
  subst hn
  refine Acc.intro _ (fun s' hs => ?_)
  cases hs with
  | writer hs => exact ih _ (writer_weight hs) s' rfl ((writer_same hs).1.trans hp)
  | task hs => exact ih _ (task_weight hs) s' rfl ((task_same hs).1.trans hp)
  | client hs => exact h _ (hp ▸ hs.next) s' rfl

theorem ends_closed (a : α) (b : Bool) : ∀ s : St κ α, s.pc = .closed a b → Ends W par junk s :=
  ends_of_client (fun pc' hn => by cases hn)

theorem ends_waitDone (a : α) : ∀ s : St κ α, s.pc = .waitDone a → Ends W par junk s :=
  ends_of_client (fun pc' hn => by cases hn; exact ends_closed _ _)

theorem ends_schedule {k : Bool → Prog α} (hk : ∀ b, ∀ s : St κ α, s.pc = .run (k b) → Ends W par junk s)
    (id : Nat) (check : Bool) (res : Option Chunk) : ∀ s : St κ α, s.pc = .schedule id check res k → Ends W par junk s :=
  ends_of_client (fun pc' hn => by cases hn; exact hk _)

theorem ends_enqChunk {k : Bool → Prog α} (hk : ∀ b, ∀ s : St κ α, s.pc = .run (k b) → Ends W par junk s)
    (src : Src) : ∀ s : St κ α, s.pc = .enqChunk src k → Ends W par junk s :=
  ends_of_client (fun pc' hn => by cases hn; (· exact hk _);(· exact ends_schedule hk _ _ _))

theorem ends_enqPad {k : Bool → Prog α} (hk : ∀ b, ∀ s : St κ α, s.pc = .run (k b) → Ends W par junk s)
    (p : Nat) : ∀ s : St κ α, s.pc = .enqPad p k → Ends W par junk s :=
  ends_of_client (fun pc' hn => by cases hn; exact hk _)

theorem ends_setFail {k : Prog α} (hk : ∀ s : St κ α, s.pc = .run k → Ends W par junk s) :
    ∀ s : St κ α, s.pc = .setFail k → Ends W par junk s :=
  ends_of_client (fun pc' hn => by cases hn; exact hk)

theorem ends_waitAnnotate {k : Prog α} (hk : ∀ s : St κ α, s.pc = .run k → Ends W par junk s) (a : Nat) :
    ∀ s : St κ α, s.pc = .waitAnnotate a k → Ends W par junk s :=
  ends_of_client (fun pc' hn => by cases hn; exact ends_setFail hk)

theorem ends_run (p : Prog α) : ∀ s : St κ α, s.pc = .run p → Ends W par junk s := by
  induction p with
  | chunk src k ih => exact ends_of_client (fun pc' hn => by cases hn; (· exact ends_enqChunk ih src);(· exact ih _))
  | pad p k ih => exact ends_of_client (fun pc' hn => by cases hn; (· exact ends_enqPad ih p);(· exact ih _))
  | futureFlush k ih => exact ends_of_client (fun pc' hn => by cases hn; exact ih _)
  | getFlush i k ih => exact ends_of_client (fun pc' hn => by cases hn; exact ih _)
  | chunkBegin k ih => exact ends_of_client (fun pc' hn => by cases hn; exact ih _)
  | getPos i k ih => exact ends_of_client (fun pc' hn => by cases hn; exact ih _)
  | ok k ih => exact ends_of_client (fun pc' hn => by cases hn; exact ih _)
  | fail k ih => exact ends_of_client (fun pc' hn => by cases hn; exact ends_waitAnnotate ih _)
  | close a => exact ends_of_client (fun pc' hn => by cases hn; exact ends_waitDone _)

/-- **Every schedule ends**, from any state. -/
theorem ends (s : St κ α) : Ends W par junk s := by
  cases hp : s.pc with
  | run p => exact ends_run p s hp
  | enqChunk src k => exact ends_enqChunk (fun b => ends_run (k b)) src s hp
  | schedule id check res k => exact ends_schedule (fun b => ends_run (k b)) id check res s hp
  | enqPad p k => exact ends_enqPad (fun b => ends_run (k b)) p s hp
  | waitAnnotate a k => exact ends_waitAnnotate (ends_run k) a s hp
  | setFail k => exact ends_setFail (ends_run k) s hp
  | waitDone a => exact ends_waitDone a s hp
  | closed a b => exact ends_closed a b s hp

end Riegeli.Par
