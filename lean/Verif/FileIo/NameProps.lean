import Verif.FileIo.WriteProps
import Verif.FileIo.WaitProps
/-!
# C126, C127: names that stand for compressed files, failed compression, and the one final message
-/
namespace Verif.FileIo
open Verif.Bytes (Byte)
open Verif.Deflate (Level)

/-- A name has the suffix exactly if it is something followed by `.gz` in letters of either size. -/
theorem gzip_suffix (path : List Char) :
    hasGzipSuffix path = true ↔ ∃ stem suffix, path = stem ++ suffix ∧ suffix.map Char.toLower = ".gz".toList := by
  constructor
  · intro h
    simp only [hasGzipSuffix, Bool.and_eq_true, beq_iff_eq] at h
    exact ⟨path.take (path.length - 3), path.drop (path.length - 3), (List.take_append_drop _ _).symm, h.2⟩
  · rintro ⟨stem, suffix, rfl, h⟩
    have hl : suffix.length = 3 := by
      have := congrArg List.length h
      simpa using this
    simp only [hasGzipSuffix, List.length_append, hl, Bool.and_eq_true, beq_iff_eq, decide_eq_true_eq, Nat.add_sub_cancel,
      List.drop_left]
    exact ⟨by omega, h⟩

/-- **Reading without a setting decodes exactly the names that end in `.gz`.** -/
theorem automatic_by_name (path : List Char) :
    decodeOnRead path .automatic = true ↔ ∃ stem suffix, path = stem ++ suffix ∧ suffix.map Char.toLower = ".gz".toList := by
  rw [← gzip_suffix]
  simp [decodeOnRead]

example : decodeOnRead ".Gz".toList .automatic = true ∧ decodeOnRead "a.g".toList .automatic = false := by decide

/-- **Data that cannot be compressed are reported as such, and the file is left alone.** -/
theorem encode_failure (W : Nat) (level : Level) (mode : WriteMode) (disk : Disk) (after : Bool) (node : Node) (data : List Byte)
    (hne : data ≠ []) (e) (he : Verif.Deflate.compress W data .gzip level = .error e) :
    runWrite W .gzip level mode disk false after node data = (.encodeFailed, node) := by
  simp [runWrite, prepareWrite, encodeOnWrite, hne, he]

end Verif.FileIo

namespace Verif.FileIo.Wait

/-- What holds while nobody publishes anything but final messages. -/
def OneFinal (s : R) : Prop :=
  (s.mem.final = false → s.mem.available = 0 ∧ ∀ u, s.pc u ≠ .publish) ∧
  (∀ u, s.pc u = .publish → s.mem.available = 0 ∧ ∀ v, s.pc v = .publish → v = u) ∧ s.mem.available ≤ 1

theorem OneFinal.move {s : R} (h : OneFinal s) (t : Nat) (p : RPc) (hp : p ≠ .publish) : OneFinal (s.at_ t p) := by
  obtain ⟨h1, h2, h3⟩ := h
  refine ⟨fun hf => ⟨(h1 hf).1, fun u => ?_⟩, fun u hu => ?_, h3⟩
  · rw [R.pc_at]
    split
    · exact hp
    · exact (h1 hf).2 u
  · rw [R.pc_at] at hu
    split at hu
    · exact absurd hu hp
    · refine ⟨(h2 u hu).1, fun v hv => ?_⟩
      rw [R.pc_at] at hv
      split at hv
      · exact absurd hv hp
      · exact (h2 u hu).2 v hv

/-- Other parts of the memory do not matter. -/
theorem OneFinal.other {s : R} (h : OneFinal s) (c : Bool) (n : Nat) :
    OneFinal ({ s with mem := { s.mem with cancel := c, counter := n } } : R) := h

theorem OneFinal.act {s : R} (h : OneFinal s) (x : RAct) (hx : ∀ t, x ≠ .publish t) : OneFinal (s.act x) := by
  cases x with
  | publish t => exact absurd rfl (hx t)
  | final t => unfold R.act; dsimp only; split; exact h.move _ _ (by simp); exact h
  | cancel t => unfold R.act; dsimp only; split; exact h.move _ _ (by simp); exact h
  | wait t => unfold R.act; dsimp only; split; exact h.move _ _ (by simp); exact h
  | take t =>
    unfold R.act
    dsimp only
    split
    · obtain ⟨h1, h2, h3⟩ := h
      refine ⟨fun hf => ⟨by have := (h1 hf).1; simp only; omega, (h1 hf).2⟩, fun u hu => ⟨?_, (h2 u hu).2⟩, by simp only; omega⟩
      have := (h2 u hu).1
      simp only
      omega
    · exact h
  | go t =>
    unfold R.act R.step
    dsimp only
    split
    · exact h
    · -- publish
      rename_i hp
      obtain ⟨h1, h2, h3⟩ := h
      obtain ⟨h4, h5⟩ := h2 t hp
      refine ⟨fun hf => absurd hp ((h1 hf).2 t), fun u hu => ?_, ?_⟩
      · rw [R.pc_at] at hu
        split at hu
        · cases hu
        · rename_i hne
          exact absurd (h5 u hu) hne
      · show s.mem.available + 1 ≤ 1
        omega
    · exact (h.other s.mem.cancel (s.mem.counter + 1)).move _ _ (by simp)
    · -- final
      split
      · exact h.move _ _ (by simp)
      · rename_i hf
        obtain ⟨h1, h2, h3⟩ := h
        have h1 := h1 (by simpa using hf)
        refine ⟨fun hf => (by cases hf), fun u hu => ⟨h1.1, fun v hv => ?_⟩, h3⟩
        have key : ∀ w, (R.at_ { s with mem := { s.mem with final := true } } t .publish).pc w = .publish → w = t := by
          intro w hw
          rw [R.pc_at] at hw
          split at hw
          · assumption
          · exact absurd hw (h1.2 w)
        rw [key u hu, key v hv]
    · exact (h.other true s.mem.counter).move _ _ (by simp)
    · exact (h.other s.mem.cancel (s.mem.counter + 1)).move _ _ (by simp)
    · exact h.move _ _ (by simp)
    · split
      · exact h.move _ _ (by simp)
      · exact h.move _ _ (by simp)
    · split
      · exact h.move _ _ (by simp)
      · exact h.move _ _ (by simp)
    · split
      · exact h.move _ _ (by simp)
      · exact h.move _ _ (by simp)
    · split
      · exact h
      · exact h.move _ _ (by simp)

/-- **There is one final message**, however many threads end the reader and however their steps interleave. -/
theorem one_final (acts : List RAct) (h : ∀ a ∈ acts, ∀ t, a ≠ .publish t) : (R.run acts).mem.available ≤ 1 := by
  have key : ∀ (acts : List RAct) (s : R), (∀ a ∈ acts, ∀ t, a ≠ .publish t) → OneFinal s → OneFinal (R.runFrom s acts) := by
    intro acts
    induction acts with
    | nil => intro s _ h; exact h
    | cons a acts ih => intro s hn h; exact ih _ (fun b hb => hn b (.tail _ hb)) (h.act a (hn a (.head _)))
  exact (key acts {} h ⟨fun _ => ⟨rfl, by simp⟩, by simp, by decide⟩).2.2

/-- Two threads end the reader at the same time. -/
example : (R.run [.final 1, .final 2, .go 1, .go 2, .go 1, .go 2, .go 1]).mem.available = 1 := by decide

end Verif.FileIo.Wait
