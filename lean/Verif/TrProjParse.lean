import Verif.TrProjPath
import Verif.TrBufs
import Verif.TrStates
/-!
# Transposed chunks: parsing with projection
-/
namespace Riegeli.Tr

/-! ## States -/

theorem sel_with (n : Node) (imp : Bool) (next : Nat) :
    sel { n with implicit := imp, next := next } = { sel n with implicit := imp, next := next } := by
  unfold sel
  split <;> rfl

/-- A node parsed without projection. -/
def PNode (nb : Nat) (n : Node) : Prop := n.cb = .nonProto → n.tag = kNonProto ∧ ∃ i, n.buf = some i ∧ i < nb

theorem callbackType_ne_nonProto (inc : Included) (tag sub len : Nat) (p : Bool) : callbackType inc tag sub len p ≠ .nonProto := by
  unfold callbackType varintCb
  repeat' split
  all_goals simp

theorem readBufIdx_lt {nb : Nat} {h h' : Bytes} {i : Nat} (hr : readBufIdx nb h = some (i, h')) : i < nb := by
  unfold readBufIdx at hr
  repeat' split at hr
  all_goals first | (cases hr; done) | (cases hr; omega)

theorem parseNode_proj {nb tag : Nat} {subs h : Bytes} {n : Node} {r : Bytes × Bytes}
    (hp : parseNode false nb tag subs h = some (n, r)) :
    parseNode true nb tag subs h = some (sel n, r) ∧ PNode nb n := by
  unfold parseNode at hp ⊢
  by_cases h0 : tag = 0
  · rw [if_pos h0] at hp ⊢
    cases hp
    exact ⟨rfl, by intro hc; cases hc⟩
  rw [if_neg h0] at hp ⊢
  by_cases h1 : tag = kNonProto
  · rw [if_pos h1] at hp ⊢
    cases hr : readBufIdx nb h with
    | none => rw [hr] at hp; cases hp
    | some x =>
      obtain ⟨i, h'⟩ := x
      rw [hr] at hp
      cases hp
      exact ⟨rfl, fun _ => ⟨rfl, i, rfl, readBufIdx_lt hr⟩⟩
  rw [if_neg h1] at hp ⊢
  by_cases h3 : tag = kStartOfMessage
  · rw [if_pos h3] at hp ⊢
    cases hp
    exact ⟨rfl, by intro hc; cases hc⟩
  rw [if_neg h3] at hp ⊢
  by_cases h2 : tag = kStartOfSubmessage
  · rw [if_pos h2] at hp ⊢
    cases hp
    exact ⟨rfl, by intro hc; cases hc⟩
  rw [if_neg h2] at hp ⊢
  simp only at hp ⊢
  generalize (if (wireType tag == 6) = true then tag - 4 else tag) = tag' at hp ⊢
  by_cases hv : validTag tag' = false
  · rw [if_pos hv] at hp; cases hp
  rw [if_neg hv] at hp ⊢
  have h8 : 8 ≤ tag' := by
    simp only [validTag, Bool.and_eq_false_iff, decide_eq_false_iff_not, not_or, Decidable.not_not] at hv
    exact hv.2
  cases hs : nextSubtype tag' (wireType tag == 6) subs with
  | none => rw [hs] at hp; cases hp
  | some x =>
    obtain ⟨sub, subs'⟩ := x
    rw [hs] at hp
    simp only at hp ⊢
    generalize hb : (if hasDataBuffer tag' sub = true then (readBufIdx nb h).map (fun r => (some r.1, r.2)) else some (none, h)) = b at hp ⊢
    cases b with
    | none => cases hp
    | some y =>
      obtain ⟨buf, h'⟩ := y
      simp only [Bool.false_eq_true, if_false] at hp
      split at hp
      · cases hp
      · cases hp
        refine ⟨?_, fun hc => absurd hc (by exact callbackType_ne_nonProto .yes tag' sub _ false)⟩
        simp only [if_true]
        have hne : ¬ (tag' = 0 ∨ tag' = kNonProto ∨ tag' = kStartOfMessage) := by simp only [kNonProto, kStartOfMessage]; omega
        unfold sel
        simp only [hne, if_false, reduceCtorEq]

theorem parseNodes_proj {nb size : Nat} : ∀ (l : List (Nat × Nat)) (subs h : Bytes) {ns : List Node} {h' : Bytes},
    parseNodes false nb size l subs h = some (ns, h') →
    parseNodes true nb size l subs h = some (ns.map sel, h') ∧ ∀ n ∈ ns, PNode nb n
  | [], subs, h, ns, h', hp => by
    simp only [parseNodes] at hp ⊢
    cases hp
    exact ⟨rfl, by intro n hn; cases hn⟩
  | (tag, next) :: l, subs, h, ns, h', hp => by
    simp only [parseNodes] at hp ⊢
    cases h1 : parseNode false nb tag subs h with
    | none => rw [h1] at hp; cases hp
    | some x =>
      obtain ⟨n, subs1, hh1⟩ := x
      rw [h1] at hp
      rw [(parseNode_proj h1).1]
      simp only at hp ⊢
      generalize hnx : (if decide (size ≤ next) = true then next - size else next) = nx at hp ⊢
      split at hp
      · cases hp
      · rename_i hsz
        rw [if_neg hsz]
        cases h2 : parseNodes false nb size l subs1 hh1 with
        | none => rw [h2] at hp; cases hp
        | some y =>
          obtain ⟨ns1, hh2⟩ := y
          rw [h2] at hp
          cases hp
          obtain ⟨e1, e2⟩ := parseNodes_proj l subs1 hh1 h2
          rw [e1]
          refine ⟨?_, ?_⟩
          · simp only [List.map_cons, sel_with]
          · intro m hm
            rcases List.mem_cons.1 hm with rfl | hm
            · exact (parseNode_proj h1).2
            · exact e2 m hm

theorem implicitWalk_congr {f g : Nat → Node} (h : ∀ i, (f i).implicit = (g i).implicit ∧ (f i).next = (g i).next) (id : Nat) :
    ∀ (fuel i : Nat) (ids : Nat → Nat), implicitWalk f id fuel i ids = implicitWalk g id fuel i ids
  | 0, _, _ => rfl
  | fuel + 1, i, ids => by
    simp only [implicitWalk, (h i).1, (h i).2]
    split
    · split
      · rfl
      · split
        · rfl
        · exact implicitWalk_congr h id fuel _ _
    · rfl

theorem implicitLoop_congr {f g : Nat → Node} (h : ∀ i, (f i).implicit = (g i).implicit ∧ (f i).next = (g i).next) (total : Nat) :
    ∀ (n i id : Nat) (ids : Nat → Nat), implicitLoop f total n i id ids = implicitLoop g total n i id ids
  | 0, _, _, _ => rfl
  | n + 1, i, id, ids => by
    simp only [implicitLoop]
    split
    · exact implicitLoop_congr h total n _ _ _
    · rw [implicitWalk_congr h id]
      split
      · rfl
      · exact implicitLoop_congr h total n _ _ _

theorem nodeAt_sel (ns : List Node) (i : Nat) : nodeAt (ns.map sel) i = sel (nodeAt ns i) := by
  unfold nodeAt
  rw [List.getD_eq_getElem?_getD, List.getD_eq_getElem?_getD, List.getElem?_map]
  cases ns[i]? with
  | none => rfl
  | some n => rfl

theorem sel_fields (n : Node) : (sel n).implicit = n.implicit ∧ (sel n).next = n.next := by
  unfold sel
  split <;> exact ⟨rfl, rfl⟩

theorem sel_nonProto {nb : Nat} {n : Node} (h : PNode nb n) :
    ((sel n).cb == .nonProto) = (n.cb == .nonProto) ∧ ((sel n).cb = .nonProto → ∃ i, (sel n).buf = some i ∧ i < nb) := by
  by_cases hc : n.cb = .nonProto
  · obtain ⟨h1, i, h2, h3⟩ := h hc
    have : sel n = n := by unfold sel; rw [if_pos (Or.inr (Or.inl h1))]
    rw [this]
    exact ⟨rfl, fun _ => ⟨i, h2, h3⟩⟩
  · have : (sel n).cb ≠ .nonProto := by
      unfold sel
      split
      · exact hc
      · simp
    refine ⟨?_, fun hh => absurd hh this⟩
    rw [beq_eq_false_iff_ne.2 this, beq_eq_false_iff_ne.2 hc]

/-- Parsing with projection, if the buffers can be decompressed. -/
theorem parseStates_proj {bufs : List (Option Bytes)} {h : Bytes} {clean : Bool} {ns : List Node} {lb : Option Nat} {first : Nat}
    (hb : ∀ b ∈ bufs, b ≠ none) (hp : parseStates false bufs h clean = some (ns, lb, first)) :
    parseStates true bufs h clean = some (ns.map sel, lb, first) := by
  have hget : ∀ i, i < bufs.length → (bufs[i]?).bind id ≠ none := by
    intro i hi
    rw [List.getElem?_eq_getElem hi]
    exact hb _ (List.getElem_mem hi)
  unfold parseStates at hp ⊢
  cases h1 : readVarint 32 false h with
  | none => rw [h1] at hp; cases hp
  | some x =>
    obtain ⟨size, h'⟩ := x
    rw [h1] at hp
    simp only at hp ⊢
    cases h2 : readVarints 32 size h' with
    | none => rw [h2] at hp; cases hp
    | some x =>
      obtain ⟨tags, h''⟩ := x
      rw [h2] at hp
      simp only at hp ⊢
      cases h3 : readVarints 32 size h'' with
      | none => rw [h3] at hp; cases hp
      | some x =>
        obtain ⟨nexts, h3'⟩ := x
        rw [h3] at hp
        simp only at hp ⊢
        generalize (tags.filter (fun t => validTag t && hasSubtype t)).length = k at hp ⊢
        split at hp
        · cases hp
        rename_i hk
        rw [if_neg hk]
        cases h4 : parseNodes false bufs.length size (tags.zip nexts) (h3'.take k) (h3'.drop k) with
        | none => rw [h4] at hp; cases hp
        | some x =>
          obtain ⟨ns1, h4'⟩ := x
          obtain ⟨e1, e2⟩ := parseNodes_proj _ _ _ h4
          rw [h4] at hp
          rw [e1]
          simp only at hp ⊢
          have hany : (ns1.map sel).any (fun n => n.cb == .nonProto) = ns1.any (fun n => n.cb == .nonProto) := by
            rw [List.any_map]
            clear e1 hp h4
            induction ns1 with
            | nil => rfl
            | cons n l ih =>
              simp only [List.any_cons, Function.comp_apply]
              rw [(sel_nonProto (e2 n List.mem_cons_self)).1]
              congr 1
              exact ih (fun m hm => e2 m (List.mem_cons_of_mem _ hm))
          rw [hany]
          split at hp
          · cases hp
          rename_i hz
          rw [if_neg hz]
          rw [if_neg (by simp), if_neg (by simp)] at hp
          rw [if_neg, if_neg]
          · have hil : containsImplicitLoop (nodeAt (ns1.map sel)) (size + 255) = containsImplicitLoop (nodeAt ns1) (size + 255) := by
              unfold containsImplicitLoop
              apply implicitLoop_congr
              intro i
              rw [nodeAt_sel]
              exact sel_fields _
            rw [hil]
            cases h5 : readVarint 32 false h4' with
            | none => rw [h5] at hp; cases hp
            | some y =>
              obtain ⟨f, h6⟩ := y
              rw [h5] at hp
              simp only at hp ⊢
              split at hp
              · cases hp
              rename_i z1
              rw [if_neg z1]
              split at hp
              · cases hp
              rename_i z2
              rw [if_neg z2]
              split at hp
              · cases hp
              rename_i z3
              rw [if_neg z3]
              cases hp
              rfl
          · rintro ⟨_, w1, w2⟩
            refine hget (bufs.length - 1) ?_ w2
            have : bufs.length ≠ 0 := fun hh => hz ⟨w1, hh⟩
            omega
          · rintro ⟨_, w⟩
            obtain ⟨n, hn, hw⟩ := List.any_eq_true.1 w
            obtain ⟨n0, hn0, rfl⟩ := List.mem_map.1 hn
            simp only [Bool.and_eq_true, beq_iff_eq] at hw
            obtain ⟨i, g1, g2⟩ := (sel_nonProto (e2 n0 hn0)).2 hw.1
            rw [g1] at hw
            exact hget i g2 hw.2

/-! ## Buffers -/

theorem uncompressedSize_bucket {C : Codec} {t : UInt8} {g : List Bytes} (hl : g.flatten.length < 2 ^ 64) :
    uncompressedSize t (bucket C t g) = some g.flatten.length := by
  unfold uncompressedSize bucket encodeCompressed
  by_cases h : t = kNone
  · simp [h]
  · rw [if_neg h, if_pos h, readVarint_write (by omega) hl]; rfl

theorem assignBuffers_write {C : Codec} {t : UInt8} : ∀ (n : Nat) (g0 g : List Bytes) (G : List (List Bytes))
    (done : List (Bytes × List Nat)) (h : Bytes),
    n = g.length + G.flatten.length → g ≠ [] → (∀ y ∈ G, y ≠ [] ∧ y.flatten.length < 2 ^ 64) →
    (∀ x ∈ g ++ G.flatten, x ≠ [] ∧ x.length < 2 ^ 64) →
    ∃ cur done', assignBuffers t n (((g ++ G.flatten).map (·.length)).flatMap writeVarint ++ h) g.flatten.length
      (bucket C t (g0 ++ g), g0.map (·.length)) done (G.map (bucket C t)) = some (h, 0, cur, done', []) ∧
      done'.reverse ++ [cur] = done.reverse ++ ((g0 ++ g) :: G).map (fun g => (bucket C t g, g.map (·.length)))
  | 0, g0, g, G, done, h, hn, hg, _, _ => by
    have := List.length_pos_iff.2 hg; omega
  | n + 1, g0, g, G, done, h, hn, hg, hG, hx => by
    obtain ⟨b, g', rfl⟩ := List.exists_cons_of_ne_nil hg
    obtain ⟨hb, hb64⟩ := hx b (by simp)
    simp only [List.cons_append, List.map_cons, List.flatMap_cons, List.append_assoc, assignBuffers]
    rw [readVarint_write (by omega) hb64]
    simp only [List.flatten_cons, List.length_append]
    rw [if_neg (by omega), Nat.add_sub_cancel_left]
    by_cases hg' : g' = []
    · subst hg'
      cases G with
      | nil =>
        simp only [List.length_cons, List.length_nil, List.flatten_nil] at hn
        have : n = 0 := by omega
        subst this
        refine ⟨(bucket C t (g0 ++ [b]), g0.map (·.length) ++ [b.length]), done, ?_, ?_⟩
        · simp [nextBucketF, assignBuffers]
        · simp
      | cons g2 G2 =>
        obtain ⟨hg2, hg2l⟩ := hG g2 List.mem_cons_self
        have hne : g2.flatten ≠ [] := flatten_ne_nil hg2 (fun x hxx => (hx x (by simp [hxx])).1)
        have hne' : g2.flatten.length ≠ 0 := by intro hh; exact hne (List.length_eq_zero_iff.1 hh)
        have hnb : nextBucketF t ([] : List Bytes).flatten.length (bucket C t (g0 ++ [b]), g0.map (·.length) ++ [b.length]) done
            ((g2 :: G2).map (bucket C t)) = some (g2.flatten.length, (bucket C t ([] ++ g2), ([] : List Bytes).map (·.length)),
              (bucket C t (g0 ++ [b]), g0.map (·.length) ++ [b.length]) :: done, G2.map (bucket C t)) := by
          simp only [List.map_cons, nextBucketF, List.flatten_nil, List.length_nil, ne_eq, not_true_eq_false, if_false,
            uncompressedSize_bucket hg2l]
          cases G2 with
          | nil => rfl
          | cons g3 G3 => simp only [List.map_cons, nextBucketF, ne_eq, hne', not_false_eq_true, if_true]; rfl
        rw [hnb]
        simp only
        obtain ⟨cur, done', f1, f2⟩ := assignBuffers_write (C := C) (t := t) n [] g2 G2
          ((bucket C t (g0 ++ [b]), g0.map (·.length) ++ [b.length]) :: done) h (by
          simp only [List.length_cons, List.length_nil, List.flatten_cons, List.length_append] at hn; omega) hg2
          (fun y hy => hG y (List.mem_cons_of_mem _ hy)) (fun x hxx => hx x (by
            simp only [List.flatten_cons]; exact List.mem_append_right _ hxx))
        refine ⟨cur, done', ?_, ?_⟩
        · simp only [List.flatten_cons, List.nil_append] at f1 ⊢
          exact f1
        · rw [f2]
          simp
    · have hne : g'.flatten ≠ [] := flatten_ne_nil hg' (fun x hxx => (hx x (by simp [hxx])).1)
      have hne' : g'.flatten.length ≠ 0 := by intro hh; exact hne (List.length_eq_zero_iff.1 hh)
      have hnb : ∀ cur, nextBucketF t g'.flatten.length cur done (G.map (bucket C t)) =
          some (g'.flatten.length, cur, done, G.map (bucket C t)) := by
        intro cur
        cases G with
        | nil => rfl
        | cons g3 G3 => simp only [List.map_cons, nextBucketF, ne_eq, hne', not_false_eq_true, if_true]
      simp only [hnb]
      obtain ⟨cur, done', f1, f2⟩ := assignBuffers_write (C := C) (t := t) n (g0 ++ [b]) g' G done h
        (by simp only [List.length_cons] at hn; omega) hg' hG
        (fun x hxx => hx x (by simp only [List.cons_append]; exact List.mem_cons_of_mem _ hxx))
      refine ⟨cur, done', ?_, ?_⟩
      · simp only [List.append_assoc, List.cons_append, List.nil_append, List.map_append, List.map_cons, List.map_nil] at f1
        simp only [List.map_append] at f1 ⊢
        exact f1
      · rw [f2]
        simp

theorem bucketBuffers_write : ∀ (g : List Bytes), bucketBuffers g.flatten true (g.map (·.length)) = g.map some
  | [] => rfl
  | b :: g => by
    simp only [List.map_cons, List.flatten_cons, bucketBuffers]
    rw [if_neg (by simp only [List.length_append]; omega), List.drop_left' rfl, List.take_left' rfl, if_neg]
    · rw [bucketBuffers_write g]
    · rintro ⟨h1, h2 | h2⟩
      · rw [List.map_eq_nil_iff] at h1
        subst h1
        exact h2 rfl
      · cases h2

theorem openBucket_write {C : Codec} (hC : C.Lawful) {t : UInt8} (ht : knownCompression t = true) {g : List Bytes}
    (hl : g.flatten.length < 2 ^ 64) : openBucket C t (bucket C t g, g.map (·.length)) = g.map some := by
  unfold openBucket
  have h1 : decompressor C t (bucket C t g) = some (g.flatten, true) := decompressor_encode hC ht hl
  rw [h1]
  exact bucketBuffers_write g

/-- The buffers are read back. -/
theorem parseBuffersF_write {C : Codec} (hC : C.Lawful) {t : UInt8} (ht : knownCompression t = true)
    (bucketSize : Nat) {s : ESt} (hg : Good s) (hcount : (bufValues s).length < 2 ^ 32)
    (hbytes : (bufValues s).flatten.length < 2 ^ 64) {h1 d1 : Bytes} (hw : writeBuffers C t bucketSize s = some (h1, d1))
    (hd : d1.length < 2 ^ 64) (h src : Bytes) :
    parseBuffersF C t (h1 ++ h) (d1 ++ src) = some ((bufValues s).map some, h, src) := by
  obtain ⟨G, e1, e2, e3, e4, e5⟩ := writeBuffers_spec C t bucketSize hg hcount
  rw [e5] at hw
  cases hw
  have hbk : ∀ g ∈ G, (bucket C t g).length < 2 ^ 64 := by
    intro g hgm
    have : (bucket C t g).length ≤ (G.flatMap (bucket C t)).length := by
      rw [List.length_flatMap]
      exact le_sum_of_mem (List.mem_map.2 ⟨g, hgm, rfl⟩)
    omega
  have hval : ∀ x ∈ bufValues s, x.length < 2 ^ 64 := by
    intro x hx
    have := length_le_flatten hx
    omega
  have hfl : ∀ g ∈ G, g.flatten.length < 2 ^ 64 := by
    intro g hgm
    have h1 : G.flatten.flatten.length = (bufValues s).flatten.length := by rw [e1]
    have h2 : g.flatten.length ≤ (G.map List.flatten).flatten.length :=
      length_le_flatten (List.mem_map.2 ⟨g, hgm, rfl⟩)
    rw [← List.flatten_flatten] at h2
    omega
  unfold parseBuffersF
  simp only [List.append_assoc]
  rw [readVarint_write (by omega) (by omega)]
  simp only
  rw [readVarint_write (by omega) (by omega)]
  simp only
  cases G with
  | nil =>
    simp only [List.flatten_nil] at e1
    simp [← e1]
  | cons g G =>
    rw [if_neg (by simp)]
    rw [readBuckets_write (g :: G) _ _ hbk]
    simp only [List.map_cons]
    rw [uncompressedSize_bucket (hfl g List.mem_cons_self)]
    simp only
    rw [List.flatten_cons] at e1
    obtain ⟨cur, done', f1, f2⟩ := assignBuffers_write (C := C) (t := t) (bufValues s).length [] g G [] h
      (by rw [← e1, List.length_append]) (e2 g List.mem_cons_self)
      (fun y hy => ⟨e2 y (List.mem_cons_of_mem _ hy), hfl y (List.mem_cons_of_mem _ hy)⟩) (by
        rw [e1]
        exact fun x hx => ⟨e3 x hx, hval x hx⟩)
    rw [e1] at f1
    simp only [List.nil_append, List.map_nil] at f1
    rw [f1]
    simp only [ne_eq, not_true_eq_false, if_false, gt_iff_lt, Nat.lt_irrefl]
    rw [f2]
    simp only [List.reverse_nil, List.nil_append]
    have key : ∀ L : List (List Bytes), (∀ g ∈ L, g.flatten.length < 2 ^ 64) →
        (L.map (fun g => (bucket C t g, g.map (·.length)))).flatMap (openBucket C t) = L.flatten.map some := by
      intro L
      induction L with
      | nil => intro _; rfl
      | cons g L ih =>
        intro hL
        simp only [List.map_cons, List.flatMap_cons, List.flatten_cons, List.map_append]
        rw [openBucket_write hC ht (hL g List.mem_cons_self), ih (fun x hx => hL x (List.mem_cons_of_mem _ hx))]
    rw [key (g :: G) hfl, List.flatten_cons, e1]

end Riegeli.Tr
