import Verif.VMap.Blob
/-! Lemmas: the checks of received bytes stay inside them. -/
namespace Verif.VMap
open Verif.Bytes

/-- no undefined behaviour -/
def Safe {α : Type} (x : Check α) : Prop := x ≠ .error .ub

theorem Safe.ok {α : Type} (a : α) : Safe (Except.ok a : Check α) := by unfold Safe; simp

theorem Safe.bind {α β : Type} {x : Check α} {f : α → Check β} (h1 : Safe x) (h2 : ∀ a, x = .ok a → Safe (f a)) : Safe (x >>= f) := by
  cases x with
  | ok a => exact h2 a rfl
  | error e =>
    intro h
    refine h1 ?_
    have h : (Except.error e : Check β) = .error .ub := h
    cases h
    rfl

theorem reject_safe {c : Prop} [Decidable c] {e : Err} : Safe (reject c e) := by
  unfold Safe reject
  split <;> simp

theorem reject_ok {c : Prop} [Decidable c] {e : Err} {u : Unit} (h : reject c e = .ok u) : ¬c := by
  unfold reject at h
  split at h
  · exact absurd h (by simp)
  · assumption

theorem readAt_safe {bs : List Byte} {off n : Nat} (h : off + n ≤ bs.length) : Safe (readAt bs off n) := by
  unfold Safe readAt
  rw [if_pos h]; simp

theorem readAt_ok {bs x : List Byte} {off n : Nat} : readAt bs off n = .ok x ↔ off + n ≤ bs.length ∧ (bs.drop off).take n = x := by
  unfold readAt
  split <;> simp [*]

theorem field_lt (bs : List Byte) (off n : Nat) : field bs off n < 256 ^ n := by
  unfold field
  refine Nat.lt_of_lt_of_le (leNat_lt _) (Nat.pow_le_pow_right (by decide) ?_)
  rw [List.length_take]; omega

theorem checkElements_safe {inner : Bool → Nat → List Byte → Check Unit} (hi : ∀ b a s, Safe (inner b a s)) (addr : Nat) (data : List Byte) :
    ∀ n off, off ≤ data.length → Safe (checkElements inner addr data n off)
  | 0, _, _ => Safe.ok _
  | n + 1, off, h => by
    unfold checkElements
    rw [if_neg (by omega)]
    refine reject_safe.bind fun _ h1 => ?_
    have h1 := reject_ok h1
    refine (readAt_safe (by omega)).bind fun head _ => ?_
    dsimp only
    refine reject_safe.bind fun _ h2 => ?_
    have h2 := reject_ok h2
    refine (readAt_safe (by omega)).bind fun sub _ => ?_
    have hb : off + 16 + min ((field head 8 4 + 7) % 2 ^ 32 / 8 * 8) ((data.length - (off + 16)) % 2 ^ 32) ≤ data.length := by
      have := Nat.mod_le (data.length - (off + 16)) (2 ^ 32)
      omega
    split
    · exact (hi _ _ _).bind fun _ _ => checkElements_safe hi addr data n _ hb
    · split
      · exact (hi _ _ _).bind fun _ _ => checkElements_safe hi addr data n _ hb
      · exact (Safe.ok _).bind fun _ _ => checkElements_safe hi addr data n _ hb

theorem checkTensor_safe {inner : Bool → Nat → List Byte → Check Unit} (hi : ∀ b a s, Safe (inner b a s)) (addr : Nat) (bs : List Byte) :
    Safe (checkTensor inner addr bs) := by
  unfold checkTensor
  refine reject_safe.bind fun _ h1 => ?_
  have h1 := reject_ok h1
  refine (readAt_safe (by omega)).bind fun head _ => ?_
  dsimp only
  refine reject_safe.bind fun _ _ => ?_
  refine reject_safe.bind fun _ _ => ?_
  refine reject_safe.bind fun _ _ => ?_
  refine reject_safe.bind fun _ _ => ?_
  split
  · exact reject_safe.bind fun _ _ => reject_safe
  · exact checkElements_safe hi _ _ _ _ (Nat.zero_le _)

theorem checkRow_safe {inner : Bool → Nat → List Byte → Check Unit} {deep : Bool} (hi : deep = false → ∀ b a s, Safe (inner b a s)) (addr : Nat) {bs : List Byte}
    {base total : Nat} (ht : total ≤ bs.length) (e : Packed) : Safe (checkRow inner deep addr bs base total e) := by
  unfold checkRow
  have hk : ∀ u : Unit, Safe (do
      reject (e.keyId = kInlineKeyId ∧ kMaxInlineKeyLength < field e.inlineKey 0 1) .corrupt
      reject (e.keyId = kSpilledKeyId ∧ (field e.inlineKey 0 4 < base ∨ total < field e.inlineKey 0 4 ∨
        total - field e.inlineKey 0 4 < field e.inlineKey 4 4)) .corrupt) := fun _ => reject_safe.bind fun _ _ => reject_safe
  split
  · refine reject_safe.bind fun _ h1 => ?_
    have h1 := reject_ok h1
    refine reject_safe.bind fun _ h2 => ?_
    have h2 := reject_ok h2
    refine (readAt_safe (by omega)).bind fun head _ => ?_
    refine reject_safe.bind fun _ _ => ?_
    refine reject_safe.bind fun _ _ => ?_
    refine reject_safe.bind fun _ _ => ?_
    split
    · refine reject_safe.bind fun _ h3 => ?_
      have h3 := reject_ok h3
      refine reject_safe.bind fun _ h4 => ?_
      refine (readAt_safe (by omega)).bind fun sub _ => ?_
      exact (hi (by simpa using h3) _ _ _).bind fun u _ => hk u
    · exact (Safe.ok _).bind fun u _ => hk u
  · exact (Safe.ok _).bind fun u _ => hk u

theorem checkRows_safe {inner : Bool → Nat → List Byte → Check Unit} {deep : Bool} (hi : deep = false → ∀ b a s, Safe (inner b a s)) (addr : Nat) {bs : List Byte}
    {base total : Nat} (ht : total ≤ bs.length) : ∀ is : List Nat, (∀ i ∈ is, 32 + 48 * i + 48 ≤ bs.length) → Safe (checkRows inner deep addr bs base total is)
  | [], _ => Safe.ok _
  | i :: is, h => by
    unfold checkRows
    refine (readAt_safe (h i (List.mem_cons_self ..))).bind fun b _ => ?_
    exact (checkRow_safe hi addr ht _).bind fun _ _ => checkRows_safe hi addr ht is fun j hj => h j (List.mem_cons_of_mem _ hj)

theorem checkChain_safe {bs : List Byte} {base total : Nat} (ht : total ≤ bs.length) (h8 : 8 ≤ total) : ∀ n cur, Safe (checkChain bs base total n cur)
  | 0, cur => by
    unfold checkChain
    split
    · exact Safe.ok _
    · unfold Safe; simp
  | n + 1, cur => by
    unfold checkChain
    split
    · exact Safe.ok _
    · refine reject_safe.bind fun _ h1 => ?_
      have h1 := reject_ok h1
      refine (readAt_safe (by omega)).bind fun chunk _ => ?_
      exact reject_safe.bind fun _ _ => checkChain_safe ht h8 n _

theorem checkMap_safe {inner : Bool → Nat → List Byte → Check Unit} {deep : Bool} (hi : deep = false → ∀ b a s, Safe (inner b a s)) (addr : Nat) (bs : List Byte) :
    Safe (checkMap inner deep addr bs) := by
  unfold checkMap
  refine reject_safe.bind fun _ h1 => ?_
  have h1 := reject_ok h1
  refine reject_safe.bind fun _ _ => ?_
  refine (readAt_safe (by omega)).bind fun h _ => ?_
  refine reject_safe.bind fun _ _ => ?_
  refine reject_safe.bind fun _ _ => ?_
  dsimp only
  refine reject_safe.bind fun _ h2 => ?_
  have h2 := reject_ok h2
  refine reject_safe.bind fun _ h3 => ?_
  have h3 := reject_ok h3
  refine (checkRows_safe hi addr (by omega) _ ?_).bind fun _ _ => checkChain_safe (by omega) (by omega) _ _
  intro i hi
  have := List.mem_range.1 hi
  omega

theorem validate_safe : ∀ n, 1 ≤ n → ∀ b addr bs, Safe (validate n b addr bs)
  | 0, h, _, _, _ => absurd h (by decide)
  | n + 1, _, true, addr, bs => by
    unfold validate
    refine checkMap_safe (fun h => validate_safe n ?_) addr bs
    simp only [decide_eq_false_iff_not] at h
    omega
  | n + 1, _, false, addr, bs => by
    unfold validate
    split
    · unfold Safe; simp
    · exact checkTensor_safe (validate_safe n (by omega)) addr bs

/-! ### What an accepted blob satisfies -/

theorem bind_ok {α β : Type} {x : Check α} {f : α → Check β} {b : β} (h : (x >>= f) = .ok b) : ∃ a, x = .ok a ∧ f a = .ok b := by
  cases x with
  | ok a => exact ⟨a, rfl, h⟩
  | error e => exact absurd h (by simp [bind, Except.bind])

theorem checkRows_ok {inner : Bool → Nat → List Byte → Check Unit} {deep : Bool} {addr : Nat} {bs : List Byte} {base total : Nat} {u : Unit} :
    ∀ is : List Nat, checkRows inner deep addr bs base total is = .ok u → ∀ i ∈ is, 32 + 48 * i + 48 ≤ bs.length ∧
      ∃ u, checkRow inner deep addr bs base total (.ofBytes ((bs.drop (32 + 48 * i)).take 48)) = .ok u
  | [], _, _, hi => absurd hi (by simp)
  | i :: is, h, j, hj => by
    unfold checkRows at h
    obtain ⟨b, h1, h⟩ := bind_ok h
    obtain ⟨h0, rfl⟩ := readAt_ok.1 h1
    obtain ⟨u', h2, h3⟩ := bind_ok h
    rcases List.mem_cons.1 hj with rfl | hj
    · exact ⟨h0, u', h2⟩
    · exact checkRows_ok is h3 j hj

/-- what the header of an accepted blob says -/
theorem validate_ok {n addr : Nat} {bs : List Byte} {u : Unit} (h : validate (n + 1) true addr bs = .ok u) : addr % 16 = 0 ∧ 32 ≤ bs.length ∧
    bs.take 4 = blobMagic ∧ field bs 4 1 = 1 ∧ field bs 12 4 ≤ bs.length ∧ field bs 16 4 ≤ field bs 12 4 ∧ 32 + 48 * field bs 6 2 ≤ field bs 16 4 ∧
    ∀ i < field bs 6 2, ∃ u, checkRow (validate n) (decide (n ≤ 1)) addr bs (field bs 16 4) (field bs 12 4) (.ofBytes ((bs.drop (32 + 48 * i)).take 48)) = .ok u := by
  unfold validate checkMap at h
  obtain ⟨_, h1, h⟩ := bind_ok h
  obtain ⟨_, h2, h⟩ := bind_ok h
  obtain ⟨hd, h3, h⟩ := bind_ok h
  obtain ⟨_, h4, h⟩ := bind_ok h
  obtain ⟨_, h5, h⟩ := bind_ok h
  obtain ⟨_, h6, h⟩ := bind_ok h
  obtain ⟨_, h7, h⟩ := bind_ok h
  obtain ⟨_, h8, h⟩ := bind_ok h
  have h1 := reject_ok h1
  have h2 := reject_ok h2
  have h4 := reject_ok h4
  have h5 := reject_ok h5
  have h6 := reject_ok h6
  have h7 := reject_ok h7
  obtain ⟨h3, rfl⟩ := readAt_ok.1 h3
  have hf : ∀ off n, off + n ≤ 32 → field ((bs.drop 0).take 32) off n = field bs off n := by
    intro off n ho
    unfold field
    rw [List.drop_zero, List.drop_take, List.take_take, Nat.min_eq_left (by omega)]
  rw [hf 4 1 (by decide)] at h5
  rw [hf 12 4 (by decide), hf 16 4 (by decide)] at h6
  rw [hf 16 4 (by decide), hf 6 2 (by decide)] at h7
  rw [hf 16 4 (by decide), hf 6 2 (by decide), hf 12 4 (by decide)] at h8
  rw [List.drop_zero, List.take_take] at h4
  refine ⟨by omega, by omega, by simpa using h4, by omega, by omega, by omega, by omega, fun i hi => ?_⟩
  exact (checkRows_ok _ h8 i (List.mem_range.2 hi)).2

end Verif.VMap
