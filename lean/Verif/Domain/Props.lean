import Verif.Domain.Model
import Verif.Nmea.Lemmas

/-!
# C159: compute domains and their memory
-/

namespace Verif.Domain

open Verif.Nmea (digitsValue decimals valueOf)

/-- The kinds of device that are known. -/
def Known (k : List Char) : Prop := k = "gpu".toList ∨ k = "fpga".toList ∨ k = "tpu".toList

/-- The backend of a kind that names none. -/
def usualBackend (k : List Char) : List Char := if k = "gpu".toList then "sycl".toList else "none".toList

theorem cut_none (a : List Char) (h : ':' ∉ a) : cut a = (a, none) := by
  have h1 : a.takeWhile (· ≠ ':') = a := by
    have := List.takeWhile_append_of_pos (p := (· ≠ ':')) (l₁ := a) (l₂ := []) (by intro c hc; simp; rintro rfl; exact h hc)
    simpa using this
  have h2 : a.dropWhile (· ≠ ':') = [] := by
    have := List.dropWhile_append_of_pos (p := (· ≠ ':')) (l₁ := a) (l₂ := []) (by intro c hc; simp; rintro rfl; exact h hc)
    simpa using this
  unfold cut
  rw [h1, h2]

theorem cut_some (a b : List Char) (h : ':' ∉ a) : cut (a ++ ':' :: b) = (a, some b) := by
  have hp : ∀ c ∈ a, (decide (c ≠ ':')) = true := by intro c hc; simp; rintro rfl; exact h hc
  have h1 : (a ++ ':' :: b).takeWhile (· ≠ ':') = a := by
    rw [List.takeWhile_append_of_pos hp]; simp
  have h2 : (a ++ ':' :: b).dropWhile (· ≠ ':') = ':' :: b := by
    rw [List.dropWhile_append_of_pos hp]; simp
  unfold cut
  rw [h1, h2]

theorem known_facts {k : List Char} (h : Known k) : mapKind k = k ∧ ':' ∉ k ∧ k ≠ "host".toList ∧ k ≠ [] ∧
    ∀ rest : List Char, k ++ rest ≠ [] ∧ k ++ rest ≠ "host".toList ∧ k ++ rest ≠ "default_cpu".toList ∧ k ++ rest ≠ "default_io".toList := by
  rcases h with rfl | rfl | rfl <;> refine ⟨by decide, by decide, by decide, by decide, fun rest => ?_⟩ <;> simp

/-- **A kind alone** means the usual backend of that kind and its default device. -/
theorem parse_kind (k : List Char) (h : Known k) : parse k = ⟨k, .shared, usualBackend k, -1⟩ := by
  obtain ⟨h1, h2, h3, h4, h5⟩ := known_facts h
  have h5 := h5 []
  rw [List.append_nil] at h5
  unfold parse
  rw [if_neg (by simp only [not_or]; exact h5), cut_none k h2]
  dsimp only
  rw [h1, if_neg h3]
  rfl

/-- **Kind and backend**; an empty backend means the usual one. -/
theorem parse_backend (k b : List Char) (h : Known k) (hb : ':' ∉ b) :
    parse (k ++ ':' :: b) = ⟨k, .shared, if b = [] then usualBackend k else b, -1⟩ := by
  obtain ⟨h1, h2, h3, h4, h5⟩ := known_facts h
  unfold parse
  rw [if_neg (by simp only [not_or]; exact h5 _), cut_some k _ h2]
  dsimp only
  rw [h1, if_neg h3, cut_none b hb]
  dsimp only
  by_cases e : b = []
  · rw [if_pos e, if_neg (by simp [e])]; rfl
  · rw [if_neg e, if_pos e]

/-- **Kind, backend and device**: the number is read up to the first character that is no digit; a number that does not fit gives the
default device. Whatever follows the number is ignored. -/
theorem parse_device (k b : List Char) (ds : List Nat) (rest : List Char) (h : Known k) (hb : ':' ∉ b) (hd : ∀ d ∈ ds, d < 10)
    (hne : ds ≠ []) (hr : ∀ c, rest.head? = some c → c.isDigit = false) :
    parse (k ++ ':' :: (b ++ ':' :: (decimals ds ++ rest))) =
      ⟨k, .shared, if b = [] then usualBackend k else b, if valueOf ds < 2147483648 then valueOf ds else -1⟩ := by
  obtain ⟨h1, h2, h3, h4, h5⟩ := known_facts h
  have hdig : decimals ds ≠ [] := by simp [decimals, hne]
  have hf : fromChars (decimals ds ++ rest) = if valueOf ds < 2147483648 then some (valueOf ds : Int) else none := by
    have hneg : ((decimals ds ++ rest).head? == some '-') = false := by
      cases ds with
      | nil => exact absurd rfl hne
      | cons d ds =>
        have hd0 := hd d (List.mem_cons_self ..)
        have : ∀ d < 10, (Verif.Nmea.digit d == '-') = false := by decide
        have e : (decimals (d :: ds) ++ rest).head? = some (Verif.Nmea.digit d) := rfl
        rw [e]
        have := this d hd0
        simpa using this
    unfold fromChars
    dsimp only
    rw [hneg]
    simp only [Bool.false_eq_true, if_false]
    rw [(Verif.Nmea.takeWhile_decimals ds hd rest hr).1, if_neg hdig, Verif.Nmea.digitsValue_decimals ds hd]
    by_cases hv : valueOf ds < 2147483648
    · rw [if_pos hv, if_pos (by omega)]
    · rw [if_neg hv, if_neg (by omega)]
  unfold parse
  rw [if_neg (by simp only [not_or]; exact h5 _), cut_some k _ h2]
  dsimp only
  rw [h1, if_neg h3, cut_some b _ hb]
  dsimp only
  have hg : (fromChars (decimals ds ++ rest)).getD (-1) = if valueOf ds < 2147483648 then (valueOf ds : Int) else -1 := by
    rw [hf]; split <;> rfl
  rw [hg]
  by_cases e : b = []
  · rw [if_pos e, if_neg (by simp [e])]
    rfl
  · rw [if_neg e, if_pos e]

example : parse "gpu:cuda:12".toList = ⟨"gpu".toList, .shared, "cuda".toList, 12⟩ ∧ parse "fpga::3x".toList = ⟨"fpga".toList, .shared, "none".toList, 3⟩ := by
  decide

/-- **A device that is no number** is the default device: a text that begins with neither a digit nor a minus sign, or is empty. -/
theorem parse_no_device (k b rest : List Char) (h : Known k) (hb : ':' ∉ b) (hr : ∀ c, rest.head? = some c → c.isDigit = false ∧ c ≠ '-') :
    parse (k ++ ':' :: (b ++ ':' :: rest)) = ⟨k, .shared, if b = [] then usualBackend k else b, -1⟩ := by
  obtain ⟨h1, h2, h3, h4, h5⟩ := known_facts h
  have hf : fromChars rest = none := by
    unfold fromChars
    cases rest with
    | nil => rfl
    | cons c cs =>
      obtain ⟨hc, hm⟩ := hr c rfl
      have hneg : ((c :: cs).head? == some '-') = false := by simpa using hm
      have ht : (c :: cs).takeWhile Char.isDigit = [] := by
        rw [List.takeWhile_cons, hc]; rfl
      dsimp only
      rw [hneg]
      simp only [Bool.false_eq_true, if_false]
      rw [ht, if_pos rfl]
  unfold parse
  rw [if_neg (by simp only [not_or]; exact h5 _), cut_some k _ h2]
  dsimp only
  rw [h1, if_neg h3, cut_some b _ hb]
  dsimp only
  rw [hf]
  by_cases e : b = []
  · rw [if_pos e, if_neg (by simp [e])]
    rfl
  · rw [if_neg e, if_pos e]
    rfl

example : parse "gpu:cuda:x1".toList = ⟨"gpu".toList, .shared, "cuda".toList, -1⟩ ∧ parse "gpu:cuda:".toList = ⟨"gpu".toList, .shared, "cuda".toList, -1⟩ := by
  decide

/-- **Everything else is the host**: exactly the texts whose part before the first colon is no known kind. -/
theorem parse_host (s : List Char) : parse s = {} ↔ ¬ Known (s.takeWhile (· ≠ ':')) := by
  by_cases hk : Known (s.takeWhile (· ≠ ':'))
  · simp only [hk, not_true, iff_false]
    obtain ⟨h1, _, h3, _, _⟩ := known_facts hk
    intro e
    have hkind : (parse s).kind = s.takeWhile (· ≠ ':') := by
      unfold parse
      rw [if_neg (by
        rintro (r | r | r | r) <;> subst r <;> revert hk <;> unfold Known <;> decide)]
      unfold cut
      dsimp only
      rw [h1, if_neg h3]
      split
      · rfl
      · split <;> rfl
    rw [e] at hkind
    exact h3 hkind.symm
  · simp only [hk, not_false_eq_true, iff_true]
    unfold parse
    split
    · rfl
    · unfold cut
      dsimp only
      have : mapKind (s.takeWhile (· ≠ ':')) = "host".toList := by
        unfold mapKind
        unfold Known at hk
        simp only [not_or] at hk
        rw [if_neg hk.1, if_neg hk.2.1, if_neg hk.2.2]
      rw [this, if_pos rfl]

/-- The device number always fits into the type. -/
theorem parse_range (s : List Char) : -2147483648 ≤ (parse s).deviceIndex ∧ (parse s).deviceIndex ≤ 2147483647 := by
  have hf : ∀ i, -2147483648 ≤ (fromChars i).getD (-1) ∧ (fromChars i).getD (-1) ≤ 2147483647 := by
    intro i
    unfold fromChars
    dsimp only
    generalize (if (i.head? == some '-') = true then i.drop 1 else i).takeWhile Char.isDigit = ds
    generalize (if (i.head? == some '-') = true then -(digitsValue ds : Int) else (digitsValue ds : Int)) = v
    by_cases h1 : ds = []
    · rw [if_pos h1]; exact ⟨by decide, by decide⟩
    · rw [if_neg h1]
      by_cases h2 : -2147483648 ≤ v ∧ v ≤ 2147483647
      · rw [if_pos h2]; exact h2
      · rw [if_neg h2]; exact ⟨by decide, by decide⟩
  have hm : -2147483648 ≤ (-1 : Int) ∧ (-1 : Int) ≤ 2147483647 := by decide
  unfold parse
  by_cases h1 : s = [] ∨ s = "host".toList ∨ s = "default_cpu".toList ∨ s = "default_io".toList
  · rw [if_pos h1]; exact hm
  · rw [if_neg h1]
    dsimp only
    by_cases h2 : mapKind (cut s).1 = "host".toList
    · rw [if_pos h2]; exact hm
    · rw [if_neg h2]
      cases (cut s).2 with
      | none => exact hm
      | some rest =>
        dsimp only
        cases (cut rest).2 with
        | none => exact hm
        | some i => exact hf i

/-- The last provider registered for a backend. -/
def latest {C : Type} (l : List (List Char × Provider C)) (b : List Char) : Option (Provider C) :=
  ((l.filter (·.1 = b)).getLast?).map (·.2)

theorem find_register {C : Type} (r : Registry C) (b b' : List Char) (f : Provider C) :
    find (register r b f) b' = if b' = b then some f else find r b' := by
  induction r with
  | nil =>
    by_cases h : b' = b
    · subst h; simp [register, find]
    · rw [if_neg h]; simp [register, find, Ne.symm h]
  | cons p r ih =>
    obtain ⟨c, g⟩ := p
    rw [register]
    unfold find at ih ⊢
    by_cases hc : c = b
    · subst hc
      rw [if_pos rfl]
      by_cases h : b' = c
      · subst h; simp
      · rw [if_neg h, List.find?_cons_of_neg (by simp [Ne.symm h]), List.find?_cons_of_neg (by simp [Ne.symm h])]
    · rw [if_neg hc]
      by_cases h : c = b'
      · subst h
        rw [if_neg hc, List.find?_cons_of_pos (by simp), List.find?_cons_of_pos (by simp)]
      · rw [List.find?_cons_of_neg (by simp [h]), ih, List.find?_cons_of_neg (by simp [h])]

/-- **The latest provider of a backend is the one that is used**, whatever else was registered before or in between. -/
theorem provider_latest {C : Type} (l : List (List Char × Provider C)) (b : List Char) :
    find (l.foldl (fun r p => register r p.1 p.2) []) b = latest l b := by
  have key : ∀ (l : List (List Char × Provider C)) (r : Registry C),
      find (l.foldl (fun r p => register r p.1 p.2) r) b = (latest l b).or (find r b) := by
    intro l
    induction l with
    | nil => intro r; simp [latest]
    | cons p l ih =>
      intro r
      rw [List.foldl_cons, ih, find_register]
      unfold latest
      by_cases h : b = p.1
      · rw [if_pos h, List.filter_cons_of_pos (by simp [h]), List.getLast?_cons]
        cases (l.filter (·.1 = b)).getLast? <;> simp
      · rw [if_neg h, List.filter_cons_of_neg (by simp [Ne.symm h])]
  rw [key]
  simp [find]

/-- **The memory of a domain**: the host, and a domain without a backend, always has the default memory; any other has what the latest
provider of its backend gives for it, an error without a provider or without a memory. -/
theorem resolve_spec {C : Type} (l : List (List Char × Provider C)) (d : Domain) (ctx : C) :
    resolve (l.foldl (fun r p => register r p.1 p.2) []) d ctx =
      if d.kind = "host".toList ∨ d.backend = "none".toList then .ok none
      else match latest l d.backend with
        | none => .noProvider d.backend
        | some f => match f d ctx with
          | .mem id => .ok (some id)
          | .null => .nullResource d.backend
          | .throws => .throws := by
  unfold resolve
  rw [provider_latest]
  rfl

/-- The variant without errors gives the same memory, and nothing where the other one fails or throws. -/
theorem try_resolve_spec {C : Type} (r : Registry C) (d : Domain) (ctx : C) (m : Option Nat) :
    tryResolve r d ctx = some m ↔ resolve r d ctx = .ok m := by
  unfold tryResolve resolve
  split
  · simp
  · cases find r d.backend with
    | none => simp
    | some f => dsimp only; cases f d ctx <;> simp

/-- **Binding never fails but by the exception of a provider**: where there is no memory for the domain, the default memory of the host
stands in for it without notice. -/
theorem bind_spec {C : Type} (r : Registry C) (d : Domain) (ctx : C) :
    (∀ m, resolve r d ctx = .ok m → bind r d ctx = some m) ∧
    (resolve r d ctx = .noProvider d.backend ∨ resolve r d ctx = .nullResource d.backend → bind r d ctx = some none) ∧
    (bind r d ctx = none ↔ resolve r d ctx = .throws) := by
  unfold bind
  refine ⟨fun m h => by rw [h], ?_, ?_⟩
  · rintro (h | h) <;> rw [h]
  · cases resolve r d ctx <;> simp

/-- Two providers for one backend: the second one is used; a device nobody provides gets host memory without notice. -/
example :
    let r : Registry Unit := register (register [] "cuda".toList fun _ _ => .mem 1) "cuda".toList fun _ _ => .mem 2
    resolve r (parse "gpu:cuda:0".toList) () = .ok (some 2) ∧ bind r (parse "gpu".toList) () = some none := by decide

end Verif.Domain
