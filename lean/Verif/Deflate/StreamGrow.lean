import Verif.Deflate.StreamResume
/-! # The one-shot decoder only ever adds to its output -/
namespace Verif.Deflate
open Verif.Bytes (Byte)

variable {R R1 : Reader} {T : Nat} {o o1 : Span} {F : Reader × Span} {ld dd : Decoder}

theorem blocks_grows (hR : R.Ok T) (h : Blocks R o F) : o.data.length ≤ F.2.data.length := by
  obtain ⟨n, R1, o1, h, rfl⟩ := h
  have h2 := mono_add (f := fun n => blocksGo n R o) (fun n x a b => blocksGo_mono n R o x a b) h (by simp) (R.left + 1)
  have := (blocksGo_safe span_safe (n + (R.left + 1)) R o (by omega) hR).ok_of h2
  exact this.2.kept.length_le

theorem ends_grows {fin : Bool} (hR : R.Ok T) (h : Ends fin R o F) : o.data.length ≤ F.2.data.length := by
  rw [Ends] at h
  split at h
  · rw [h]; exact Nat.le_refl _
  · exact blocks_grows hR h

theorem comp_grows {fin : Bool} (hl : ld.Sound) (hd : dd.Sound) (hR : R.Ok T) (h : Comp ld dd fin R o F) : o.data.length ≤ F.2.data.length := by
  obtain ⟨n, R1, o1, h, he⟩ := h
  have h2 := mono_add (f := fun n => blockGo ld dd n R o) (fun n x a b => blockGo_mono n R o x a b) h (by simp) (R.left + 1)
  have := (blockGo_safe span_safe hl hd (n + (R.left + 1)) R o (by omega) hR).ok_of h2
  exact Nat.le_trans this.2.2.kept.length_le (ends_grows this.1 he)

theorem append_grows {b : Byte} (h : o.append b = .ok o1) : o.data.length < o1.data.length := by
  rw [Span.append] at h
  split at h
  · cases h
  · rw [← Except.ok.inj h, List.length_append, List.length_singleton]; omega

theorem stored_grows {fin : Bool} {k : Nat} (hk : k ≠ 0) (hR : R.Ok T) (h : Stored k fin R o F) : o.data.length < F.2.data.length := by
  obtain ⟨n, rfl⟩ : ∃ n, k = n + 1 := ⟨k - 1, by omega⟩
  obtain ⟨R1, o1, h, he⟩ := h
  rw [storedBytes] at h
  have h1 := readBits_safe hR 8
  cases e : R.readBits 8 with
  | error x => rw [e] at h; cases h
  | ok p =>
    have h1 := h1.ok_of e
    rw [e] at h
    dsimp only at h
    cases e2 : Span.append o (BitVec.ofNat 8 p.1) with
    | error x =>
      have e3 : Output.append o (BitVec.ofNat 8 p.1) = .error x := e2
      rw [e3] at h; cases h
    | ok o2 =>
      have e3 : Output.append o (BitVec.ofNat 8 p.1) = .ok o2 := e2
      rw [e3] at h
      have h2 := (storedBytes_safe span_safe n p.2 o2 h1.2.1).ok_of h
      have hk : o2.data.length ≤ o1.data.length := h2.2.2.kept.length_le
      have := ends_grows h2.1 he
      have := append_grows e2
      omega

theorem copy_grows {d n : Nat} (h : o.copy d n = .ok o1) : o1.data.length = o.data.length + n := by
  rw [Span.copy] at h
  by_cases h1 : d = 0 ∨ o.data.length - o.historyBegin < d
  · rw [if_pos h1] at h; cases h
  · rw [if_neg h1] at h
    by_cases h2 : o.capacity - o.data.length < n
    · rw [if_pos h2] at h; cases h
    · rw [if_neg h2] at h
      have hs := copyGo_safe n d o.data (by omega) (by omega)
      cases e : copyGo n d o.data with
      | error x => rw [e] at h; cases h
      | ok data =>
        rw [e] at h
        rw [← Except.ok.inj h]
        exact (hs.ok_of e).1

theorem match_grows {s : Nat} {q : Reader × Span} (hb : 3 ≤ kLengthBase.getD (s - 257) 0) (h : decodeMatch dd R o s = .ok q) : o.data.length < q.2.data.length := by
  unfold decodeMatch at h
  generalize kLengthBase.getD (s - 257) 0 = base at h hb
  generalize kLengthExtra.getD (s - 257) 0 = extra at h
  have hx : ∀ p, readExtra R base extra = .ok p → base ≤ p.1 := by
    intro p hp
    rw [readExtra] at hp
    by_cases hz : extra ≠ 0
    · rw [if_pos hz] at hp
      cases e : R.readBits extra with
      | error x => rw [e] at hp; cases hp
      | ok v => rw [e] at hp; rw [← Except.ok.inj hp]; exact Nat.le_add_right _ _
    · rw [if_neg hz] at hp
      rw [← Except.ok.inj hp]; exact Nat.le_refl _
  cases e : readExtra R base extra with
  | error x => rw [e] at h; cases h
  | ok p =>
    have h1 := hx p e
    rw [e] at h
    dsimp only at h
    cases e2 : decodeSymbol p.2 dd with
    | error x => rw [e2] at h; cases h
    | ok p2 =>
      rw [e2] at h
      dsimp only at h
      by_cases h30 : 30 ≤ p2.1
      · rw [if_pos h30] at h; cases h
      · rw [if_neg h30] at h
        generalize kDistanceBase.getD p2.1 0 = db at h
        generalize kDistanceExtra.getD p2.1 0 = dx at h
        cases e3 : readExtra p2.2 db dx with
        | error x => rw [e3] at h; cases h
        | ok p3 =>
          rw [e3] at h
          dsimp only at h
          cases e4 : Span.copy o p3.1 p.1 with
          | error x =>
            have e5 : Output.copy o p3.1 p.1 = .error x := e4
            rw [e5] at h; cases h
          | ok o2 =>
            have e5 : Output.copy o p3.1 p.1 = .ok o2 := e4
            rw [e5] at h
            rw [← Except.ok.inj h]
            have := copy_grows e4
            show _ < o2.data.length
            omega

end Verif.Deflate
