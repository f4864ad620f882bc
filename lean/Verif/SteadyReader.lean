import Verif.ChainReader
import Verif.FragReader
/-!
# Classes of readers which do not fail

`Unfailing R P`: no function of the class changes `ok()`; `PullSlow(n)` is considered for `n` with `P n`.
-/
namespace Riegeli.Rdr

/-- No function changes `ok()`. -/
structure Unfailing {σ : Type} (R : ReaderOps σ) (P : Nat → Prop) : Prop where
  setCursor : ∀ c s, R.ok (R.setCursor c s) = R.ok s
  pullSlow : ∀ n rec s, P n → R.ok (R.pullSlow n rec s).2 = R.ok s
  readSlow : ∀ k n s, R.ok (R.readSlow k n s).2.2 = R.ok s
  copySlow : ∀ n d s, R.ok (R.copySlow n d s).2.2 = R.ok s
  copyBackSlow : ∀ n d s, R.ok (R.copyBackSlow n d s).2.2 = R.ok s
  readSomeSlow : ∀ n s, R.ok (R.readSomeSlow n s).2.2 = R.ok s
  copySomeSlow : ∀ n d s, R.ok (R.copySomeSlow n d s).2.2 = R.ok s
  readHintSlow : ∀ n rec s, R.ok (R.readHintSlow n rec s) = R.ok s
  seekSlow : ∀ p s, R.ok (R.seekSlow p s).2 = R.ok s
  sizeImpl : ∀ s, R.ok (R.sizeImpl s).2 = R.ok s

namespace Unfailing
variable {σ : Type} {R : ReaderOps σ} {P : Nat → Prop} (S : Unfailing R P)
include S

theorem move (n : Nat) (s : σ) : R.ok (R.move n s) = R.ok s := S.setCursor _ _

theorem pull (n rec : Nat) (s : σ) (h : P n) : R.ok (R.pull n rec s).2 = R.ok s := by
  unfold ReaderOps.pull
  split
  · rfl
  · exact S.pullSlow _ _ _ h

theorem read (k : Kind) (n : Nat) (s : σ) : R.ok (R.read k n s).2.2 = R.ok s := by
  unfold ReaderOps.read
  split
  · exact S.move _ _
  · exact S.readSlow _ _ _

theorem seek (p : Nat) (s : σ) : R.ok (R.seek p s).2 = R.ok s := by
  unfold ReaderOps.seek
  split
  · exact S.setCursor _ _
  · exact S.seekSlow _ _

theorem skip (n : Nat) (s : σ) : R.ok (R.skip n s).2 = R.ok s := by
  unfold ReaderOps.skip
  split
  · exact S.move _ _
  · split
    · exact S.seekSlow _ _
    · exact S.seekSlow _ _

/-- No operation changes `ok()`. -/
theorem run (hP : ∀ n, P n) (op : ROp) (s : σ) : R.ok (op.run R s) = R.ok s := by
  cases op with
  | pull n rec => exact S.pull n rec s (hP n)
  | read k n => exact S.read k n s
  | readView n => exact (S.move _ _).trans (S.pull n 0 s (hP n))
  | readByte =>
    show R.ok (R.readByte s).2 = _
    unfold ReaderOps.readByte
    dsimp only
    split
    · exact (S.move _ _).trans (S.pull 1 0 s (hP 1))
    · exact S.pull 1 0 s (hP 1)
  | copy n d =>
    show R.ok (R.copy n d s).2.2 = _
    unfold ReaderOps.copy
    split
    · exact S.move _ _
    · exact S.copySlow _ _ _
  | copyBack n d =>
    show R.ok (R.copyBack n d s).2.2 = _
    unfold ReaderOps.copyBack
    split
    · exact S.move _ _
    · exact S.copyBackSlow _ _ _
  | readSome k n =>
    show R.ok (R.readSome k n s).2.2 = _
    unfold ReaderOps.readSome
    split
    · dsimp only
      split
      · exact S.move _ _
      · exact S.readSlow _ _ _
    · split
      · exact S.readSomeSlow _ _
      · dsimp only
        split
        · exact (S.read _ _ _).trans (S.pullSlow 1 n s (hP 1))
        · exact S.pullSlow 1 n s (hP 1)
  | copySome n d =>
    show R.ok (R.copySome n d s).2.2 = _
    unfold ReaderOps.copySome
    split
    · dsimp only
      split
      · exact S.move _ _
      · exact S.copySlow _ _ _
    · exact S.copySomeSlow _ _ _
  | readHint n rec =>
    show R.ok (R.readHint n rec s) = _
    unfold ReaderOps.readHint
    split
    · rfl
    · exact S.readHintSlow _ _ _
  | seek p => exact S.seek p s
  | skip n => exact S.skip n s
  | size => exact S.sizeImpl s

end Unfailing

/-! ## `PullableReader` over a class which does not fail -/
namespace PS
variable {σ : Type} {R : ReaderOps σ} {room : Nat → Nat → Nat} (S : Unfailing R (· = 1))
include S

theorem ends_ok (s : PS σ) : R.ok (s.ends R).2.src = R.ok s.src := by
  unfold ends
  dsimp only
  split
  · exact S.setCursor _ _
  · rfl

theorem setCursor_ok (c : Nat) (s : PS σ) : R.ok (s.setCursor R c).src = R.ok s.src := by
  unfold setCursor
  split
  · rfl
  · exact S.setCursor _ _

theorem gather_ok (fuel need most rec : Nat) (s : σ) : R.ok (gather R fuel need most rec s).2 = R.ok s := by
  induction fuel generalizing need most rec s with
  | zero => rfl
  | succ fuel ih =>
    unfold gather
    dsimp only
    split
    · exact S.move _ _
    · have e := (S.pullSlow 1 (rec - min (R.avail s) most) (R.move (min (R.avail s) most) s) rfl).trans (S.move _ _)
      split
      · exact e
      · exact (ih _ _ _ _).trans e

theorem collect_ok (n rec : Nat) (s : PS σ) : R.ok (s.collect R room n rec).2.src = R.ok s.src := gather_ok S _ _ _ _ _

theorem pullSlow_ok (n rec : Nat) (s : PS σ) : R.ok (s.pullSlow R room n rec).2.src = R.ok s.src := by
  unfold pullSlow
  split
  · dsimp only
    split
    · rfl
    · exact S.pullSlow 1 rec _ rfl
  · have he : R.ok (if s.used then s.ends R else (false, s)).2.src = R.ok s.src := by
      split
      · exact ends_ok S s
      · rfl
    dsimp only
    generalize (if s.used then s.ends R else (false, s)) = e at *
    split
    · exact he
    · split
      · have hr := (S.pullSlow 1 rec e.2.src rfl).trans he
        generalize R.pullSlow 1 rec e.2.src = r at *
        split
        · exact hr
        · split
          · exact hr
          · exact (collect_ok S _ _ _).trans hr
      · exact (collect_ok S _ _ _).trans he

theorem choose_ok (s : PS σ) : R.ok (if (s.ends R).1 then (s.ends R).2 else s.sync).src = R.ok s.src := by
  split
  · exact ends_ok S s
  · rfl

theorem readSlow_ok (k : Kind) (n : Nat) (s : PS σ) : R.ok (s.readSlow R k n).2.2.src = R.ok s.src := by
  have hc := choose_ok S s
  unfold readSlow
  split
  · dsimp only
    split
    · exact setCursor_ok S _ _
    · generalize (if (s.ends R).1 then (s.ends R).2 else s.sync) = t at *
      generalize (if (s.ends R).1 then 0 else s.avail R) = a
      split
      · exact (setCursor_ok S _ _).trans hc
      · exact (S.readSlow _ _ _).trans hc
  · exact S.readSlow _ _ _

theorem copySlow_ok (n : Nat) (d : Dest) (s : PS σ) : R.ok (s.copySlow R n d).2.2.src = R.ok s.src := by
  have hc := choose_ok S s
  unfold copySlow
  split
  · dsimp only
    split
    · exact setCursor_ok S _ _
    · generalize (if (s.ends R).1 then (s.ends R).2 else s.sync) = t at *
      generalize (if (s.ends R).1 then (true, d) else d.write (s.peek R (s.avail R))) = w
      generalize (if (s.ends R).1 then n else n - s.avail R) = m
      split
      · exact hc
      · split
        · exact (setCursor_ok S _ _).trans hc
        · exact (S.copySlow _ _ _).trans hc
  · exact S.copySlow _ _ _

theorem copyBackSlow_ok (n : Nat) (d : Dest) (s : PS σ) : R.ok (s.copyBackSlow R n d).2.2.src = R.ok s.src := by
  have hc := choose_ok S s
  unfold copyBackSlow
  split
  · dsimp only
    split
    · exact setCursor_ok S _ _
    · generalize (if (s.ends R).1 then (s.ends R).2 else s.sync) = t at *
      generalize (if (s.ends R).1 then [] else s.peek R (s.avail R)) = pre
      generalize (if (s.ends R).1 then n else n - s.avail R) = m
      split
      · split
        · exact (setCursor_ok S _ _).trans hc
        · exact (setCursor_ok S _ _).trans hc
      · split
        · exact (S.copyBackSlow _ _ _).trans hc
        · exact (S.copyBackSlow _ _ _).trans hc
  · exact S.copyBackSlow _ _ _

theorem copySomeSlow_ok (n : Nat) (d : Dest) (s : PS σ) : R.ok (s.copySomeSlow R n d).2.2.src = R.ok s.src := by
  have he : R.ok (if s.used then s.ends R else (true, s)).2.src = R.ok s.src := by
    split
    · exact ends_ok S s
    · rfl
  unfold copySomeSlow
  dsimp only
  generalize (if s.used then s.ends R else (true, s)) = e at *
  split
  · exact setCursor_ok S _ _
  · split
    · split
      · exact (setCursor_ok S _ _).trans he
      · exact (S.copySlow _ _ _).trans he
    · exact (S.copySomeSlow _ _ _).trans he

theorem steady : Unfailing (ops R room) (fun _ => True) where
  setCursor c s := setCursor_ok S c s
  pullSlow n rec s _ := pullSlow_ok S n rec s
  readSlow k n s := readSlow_ok S k n s
  copySlow n d s := copySlow_ok S n d s
  copyBackSlow n d s := copyBackSlow_ok S n d s
  readSomeSlow n s := by
    show R.ok (s.readSomeSlow R n).2.2.src = R.ok s.src
    unfold readSomeSlow
    dsimp only
    split
    · exact S.move _ _
    · exact S.readSomeSlow _ _
  copySomeSlow n d s := copySomeSlow_ok S n d s
  readHintSlow n rec s := by
    show R.ok (s.readHintSlow R n rec).src = R.ok s.src
    have he := ends_ok S s
    unfold readHintSlow
    split
    · dsimp only
      split
      · split
        · exact S.readHintSlow _ _ _
        · rfl
      · split
        · exact he
        · exact (S.readHintSlow _ _ _).trans he
    · exact S.readHintSlow _ _ _
  seekSlow p s := by
    show R.ok (s.seekSlow R p).2.src = R.ok s.src
    unfold seekSlow
    dsimp only
    split
    · exact S.setCursor _ _
    · exact S.seekSlow _ _
  sizeImpl s := S.sizeImpl s.src

theorem syncImpl_ok (s : PS σ) : R.ok (s.syncImpl R).src = R.ok s.src := by
  have he := ends_ok S s
  unfold syncImpl
  split
  · dsimp only
    split
    · exact he
    · exact S.seek _ _
  · rfl

end PS

/-! ## `ChainReader` and `CordReader` do not fail -/

theorem readChars_steady {σ : Type} (C : Core σ) (hm : ∀ c s, C.ok (C.setCursor c s) = C.ok s) (hp : ∀ rec s, C.ok (C.pullSlow 1 rec s).2 = C.ok s)
    (fuel n : Nat) (s : σ) : C.ok (C.readChars fuel n s).2.2 = C.ok s := by
  induction fuel generalizing n s with
  | zero => rfl
  | succ fuel ih =>
    have ho := (hp (n - C.avail s) (C.move (C.avail s) s)).trans (hm _ _)
    unfold Core.readChars
    dsimp only
    generalize C.pullSlow 1 (n - C.avail s) (C.move (C.avail s) s) = r at *
    split
    · exact ho
    · split
      · exact (ih _ _).trans ho
      · exact (hm _ _).trans ho

theorem readBlocks_steady {σ : Type} (C : Core σ) (hm : ∀ c s, C.ok (C.setCursor c s) = C.ok s) (hp : ∀ rec s, C.ok (C.pullSlow 1 rec s).2 = C.ok s)
    (fuel n : Nat) (s : σ) : C.ok (C.readBlocks fuel n s).2.2 = C.ok s := by
  induction fuel generalizing n s with
  | zero => rfl
  | succ fuel ih =>
    have ho : C.ok (C.readFast (C.blockSize n) s).2.2 = C.ok s := by
      unfold Core.readFast
      split
      · exact hm _ _
      · exact readChars_steady C hm hp _ _ _
    unfold Core.readBlocks
    dsimp only
    generalize C.readFast (C.blockSize n) s = r at *
    split
    · exact ho
    · split
      · exact (ih _ _).trans ho
      · exact ho

theorem readSomeSlow_steady {σ : Type} (C : Core σ) (hm : ∀ c s, C.ok (C.setCursor c s) = C.ok s) (hp : ∀ rec s, C.ok (C.pullSlow 1 rec s).2 = C.ok s)
    (n : Nat) (s : σ) : C.ok (C.readSomeSlow n s).2.2 = C.ok s := by
  have ho := hp n s
  unfold Core.readSomeSlow
  dsimp only
  split
  · exact ho
  · exact (hm _ _).trans ho

section
variable {σ : Type} {R : ReaderOps σ} (src : Bytes) (hc : ∀ c s, R.ok (R.setCursor c s) = R.ok s) (hp : ∀ rec s, R.ok (R.pullSlow 1 rec s).2 = R.ok s)
  (hr : ∀ k n s, R.ok (R.readSlow k n s).2.2 = R.ok s) (hs : ∀ p s, R.ok (R.seekSlow p s).2 = R.ok s)
include hc hr hs

theorem copyVia_ok (n : Nat) (d : Dest) (s : σ) : R.ok (copyVia R src n d s).2.2 = R.ok s := by
  have h1 : ∀ k n, R.ok (R.read k n s).2.2 = R.ok s := by
    intro k n
    unfold ReaderOps.read
    split
    · exact hc _ _
    · exact hr _ _ _
  have h2 : ∀ n, R.ok (R.skip n s).2 = R.ok s := by
    intro n
    unfold ReaderOps.skip
    split
    · exact hc _ _
    · split
      · exact hs _ _
      · exact hs _ _
  unfold copyVia
  split
  · rfl
  · dsimp only
    split
    · split
      · exact h2 _
      · exact h2 _
    · split
      · split
        · rfl
        · exact h1 _ _
      · split
        · exact h1 _ _
        · exact h1 _ _

theorem copyBackVia_ok (n : Nat) (d : Dest) (s : σ) : R.ok (copyBackVia R src n d s).2.2 = R.ok s := by
  have h2 : R.ok (R.skip n s).2 = R.ok s := by
    unfold ReaderOps.skip
    split
    · exact hc _ _
    · split
      · exact hs _ _
      · exact hs _ _
  have h3 : ∀ p, R.ok (R.seek p s).2 = R.ok s := by
    intro p
    unfold ReaderOps.seek
    split
    · exact hc _ _
    · exact hs _ _
  unfold copyBackVia
  split
  · rfl
  · split
    · exact h3 _
    · split
      · exact h2
      · split
        · dsimp only
          split
          · rfl
          · split
            · exact hr _ _ _
            · exact hr _ _ _
        · exact hr _ _ _

include hp

theorem via_steady (hrs : ∀ n s, R.ok (R.readSomeSlow n s).2.2 = R.ok s) (hh : ∀ n rec s, R.ok (R.readHintSlow n rec s) = R.ok s)
    (hz : ∀ s, R.ok (R.sizeImpl s).2 = R.ok s) : Unfailing (via R src) (· = 1) where
  setCursor := hc
  pullSlow n rec s h := by rw [h]; exact hp rec s
  readSlow := hr
  copySlow := copyVia_ok src hc hr hs
  copyBackSlow := copyBackVia_ok src hc hr hs
  readSomeSlow := hrs
  copySomeSlow n d s := by
    show R.ok (copySomeVia R src n d s).2.2 = R.ok s
    have ho := hp n s
    unfold copySomeVia
    dsimp only
    split
    · exact ho
    · split
      · exact (hc _ _).trans ho
      · exact (copyVia_ok src hc hr hs _ _ _).trans ho
  readHintSlow := hh
  seekSlow := hs
  sizeImpl := hz
end

theorem ChR.steady (bs : List Bytes) : Unfailing (ChR.behind bs) (· = 1) := by
  have hp : ∀ rec s, (ChR.core bs).ok ((ChR.core bs).pullSlow 1 rec s).2 = (ChR.core bs).ok s := by
    intro rec s
    show (s.pull bs).2.ok = s.ok
    unfold ChR.pull
    split
    · rfl
    · split
      · rfl
      · dsimp only
        split <;> rfl
  refine via_steady bs.flatten (fun c s => rfl) hp (fun k n s => ?_) (fun p s => ?_) (fun n s => readSomeSlow_steady (ChR.core bs) (fun _ _ => rfl) hp n s) (fun _ _ _ => rfl) (fun s => ?_)
  · cases k with
    | chars => exact readChars_steady (ChR.core bs) (fun _ _ => rfl) hp _ _ _
    | blocks =>
      show (s.readBlocks bs n).2.2.ok = s.ok
      unfold ChR.readBlocks
      split
      · rfl
      · split
        · rfl
        · split <;> rfl
  · show (s.seek bs p).2.ok = s.ok
    unfold ChR.seek
    split
    · rfl
    · split <;> rfl
  · show (if s.ok = false then (none, s) else (some bs.flatten.length, s)).2.ok = s.ok
    split <;> rfl

theorem CdR.steady (D : Bytes) (chunk block : Nat → Nat) : Unfailing (CdR.behind D chunk block) (· = 1) := by
  have hp : ∀ rec s, (CdR.core D chunk block).ok ((CdR.core D chunk block).pullSlow 1 rec s).2 = (CdR.core D chunk block).ok s := by
    intro rec s
    show (s.pull D chunk).2.ok = s.ok
    unfold CdR.pull
    split
    · rfl
    · split
      · rfl
      · dsimp only
        split <;> rfl
  refine via_steady D (fun c s => rfl) hp (fun k n s => ?_) (fun p s => ?_) (fun n s => readSomeSlow_steady (CdR.core D chunk block) (fun _ _ => rfl) hp n s) (fun _ _ _ => rfl) (fun s => ?_)
  · cases k with
    | chars => exact readChars_steady (CdR.core D chunk block) (fun _ _ => rfl) hp _ _ _
    | blocks =>
      show (s.readBlocks D chunk block n).2.2.ok = s.ok
      unfold CdR.readBlocks
      split
      · exact readBlocks_steady (CdR.core D chunk block) (fun _ _ => rfl) hp _ _ _
      · split <;> rfl
  · show (s.seek D chunk p).2.ok = s.ok
    unfold CdR.seek
    split
    · rfl
    · split
      · rfl
      · split
        · split <;> rfl
        · rfl
  · show (if s.ok = false then (none, s) else (some D.length, s)).2.ok = s.ok
    split <;> rfl

end Riegeli.Rdr
