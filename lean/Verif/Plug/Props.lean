import Verif.Plug.Lemmas
/-! # Properties of the registry (C108), the loader (C109, C110) and the cache of definitions (C111) -/
namespace Verif.Plug
open Spec

/-! ## C108: names, aliases and merging -/

/-- Creating by a name gives the type of the last registration that claims it. -/
theorem create_last (rs : List Reg) (n t : Name) :
    Registry.create (regs [] rs) n = some t ↔ ∃ a, Last rs n (t, a) := by
  unfold Registry.create
  constructor
  · intro h
    rcases last_or_none rs n with ⟨⟨t', a⟩, hl⟩ | hn
    · rw [find_last hl] at h
      have : t' = t := by simpa using h
      exact ⟨a, this ▸ hl⟩
    · rw [find_regs_keep _ _ _ hn] at h; cases h
  · rintro ⟨a, hl⟩
    rw [find_last hl]; rfl

example : Registry.create (regs [] [("A", "x"), ("B", "x")]) "x" = some "B" ∧ Last [("A", "x"), ("B", "x")] "x" ("B", "x") :=
  ⟨by decide, [("A", "x")], [], rfl, .inr ⟨rfl, by decide⟩, by simp⟩

/-- The names listed are those claimed, each once, and they are those for which a block can be created. -/
theorem keys_claimed (rs : List Reg) : (Registry.keys (regs [] rs)).Nodup ∧ ∀ n,
    (n ∈ Registry.keys (regs [] rs) ↔ ∃ r ∈ rs, Claims r n) ∧
    (Registry.contains (regs [] rs) n = true ↔ ∃ r ∈ rs, Claims r n) ∧
    ((Registry.create (regs [] rs) n).isSome ↔ ∃ r ∈ rs, Claims r n) := by
  have key : ∀ n, (find (regs [] rs) n).isSome ↔ ∃ r ∈ rs, Claims r n := by
    intro n
    rcases last_or_none rs n with ⟨r, hl⟩ | hn
    · rw [find_last hl]
      obtain ⟨b, l, e, hc, _⟩ := id hl
      exact ⟨fun _ => ⟨r, last_mem hl, hc⟩, fun _ => rfl⟩
    · rw [find_regs_keep _ _ _ hn]
      exact ⟨fun h => (nomatch h), fun ⟨r, hr, hc⟩ => absurd hc (hn r hr)⟩
  refine ⟨nodup_regs rs .nil, fun n => ⟨?_, key n, ?_⟩⟩
  · rw [← key n]
    exact mem_keys_iff.trans Option.isSome_iff_exists.symm
  · rw [← key n]; unfold Registry.create; rw [Option.isSome_map]

example : Registry.keys (regs [] [("A", "x"), ("B", "")]) = ["A", "x", "B"] := by decide

/-- Where no name is claimed for two types, a block's saved name creates a block of the same type.  Missing:
names that clash, see `saved_name_clash`. -/
theorem saved_name_partial (rs : List Reg) (hn : NoClash rs) (r : Reg) (hr : r ∈ rs) :
    Registry.create (regs [] rs) (Registry.typeName (regs [] rs) r.1) = some r.1 := by
  obtain ⟨⟨t, a⟩, hl⟩ : ∃ x, Last rs r.1 x := by
    rcases last_or_none rs r.1 with h | h
    · exact h
    · exact absurd (.inl rfl) (h r hr)
  have hcl : Claims (t, a) r.1 := by obtain ⟨_, _, _, h, _⟩ := hl; exact h
  have ht : t = r.1 := hn _ (last_mem hl) _ hr _ hcl (.inl rfl)
  have hf := find_last hl []
  have self : Registry.create (regs [] rs) r.1 = some r.1 := by
    unfold Registry.create; rw [hf, ← ht]; rfl
  unfold Registry.typeName
  rw [hf]
  by_cases h1 : r.1 = a
  · simp only [h1, if_true]; rw [← h1]; exact self
  · simp only [h1, if_false]
    by_cases h2 : a = ""
    · rw [if_pos h2]; exact self
    · rw [if_neg h2]
      have hc : Claims (t, a) a := .inr ⟨rfl, h2⟩
      obtain ⟨x, hx⟩ : ∃ x, Last rs a x := by
        rcases last_or_none rs a with h | h
        · exact h
        · exact absurd hc (h _ (last_mem hl))
      have hx1 : Claims x a := by obtain ⟨_, _, _, h, _⟩ := hx; exact h
      have : x.1 = t := hn _ (last_mem hx) _ (last_mem hl) _ hx1 hc
      unfold Registry.create; rw [find_last hx, ← ht, ← this]; rfl

example : NoClash [("A", "x"), ("B", "")] ∧ Registry.typeName (regs [] [("A", "x"), ("B", "")]) "A" = "x" := by
  refine ⟨?_, by decide⟩
  intro r hr r' hr' n h h'
  simp only [List.mem_cons, List.not_mem_nil, or_false] at hr hr'
  unfold Claims at h h'
  rcases hr with rfl | rfl <;> rcases hr' with rfl | rfl <;> grind

/-- The property without that condition is false of the code: with one alias for two types, the name saved for
a block of the first creates a block of the second. -/
theorem saved_name_clash : ¬ ∀ (rs : List Reg), ∀ r ∈ rs,
    Registry.create (regs [] rs) (Registry.typeName (regs [] rs) r.1) = some r.1 :=
  fun h => absurd (h [("A", "x"), ("B", "x")] ("A", "x") (by simp)) (by decide)

/-- After merging, what was known stays as it was and what was not comes from the other registry. -/
theorem create_merge (m o : Registry) (n : Name) :
    (m.merge o).create n = (m.create n).or (o.create n) := by
  unfold Registry.create; rw [find_merge]; cases find m n <;> rfl

example : (Registry.merge (regs [] [("B", "x")]) (regs [] [("A", "x")])).create "x" = some "B" ∧
    (Registry.merge (regs [] [("B", "x")]) (regs [] [("A", "x")])).create "A" = some "A" := by decide

/-- Merging two registries in which every saved name creates its own type can give one in which one does not. -/
theorem merge_breaks_saved_name : ∃ ra rb : List Reg, NoClash ra ∧ NoClash rb ∧ ∃ r ∈ ra,
    Registry.create (Registry.merge (regs [] rb) (regs [] ra)) (Registry.typeName (Registry.merge (regs [] rb) (regs [] ra)) r.1)
      ≠ some r.1 := by
  refine ⟨[("A", "x")], [("B", "x")], ?_, ?_, ("A", "x"), by simp, by decide⟩ <;>
  · intro r hr r' hr' n _ _
    rw [List.mem_singleton.1 hr, List.mem_singleton.1 hr']

/-- Registering says "new" exactly when the name of the type was not known, whatever the alias. -/
theorem insert_reports_type (m : Registry) (t a : Name) : (m.insert t a).2 = true ↔ m.contains t = false := by
  unfold Registry.insert Registry.contains
  by_cases h : a = ""
  · simp [h]
  · simp [h, find_assign]

/-- So a new alias for a known type is not reported, although it is registered. -/
theorem new_alias_not_reported : ¬ ∀ (m : Registry) (t a : Name),
    (m.insert t a).2 = true ↔ ∃ n, m.contains n = false ∧ (m.insert t a).1.contains n = true :=
  fun h => absurd ((h (regs [] [("A", "")]) "A" "x").2 ⟨"x", by decide, by decide⟩) (by decide)

/-- An alias that starts with '=' is taken as it is, an empty one is none. -/
theorem alias_verbatim (portable : Name → Name) (r : List Char) (params : Name) :
    fullAlias portable (String.ofList ('=' :: r)) params = String.ofList r ∧ fullAlias portable "" params = "" := by
  constructor
  · unfold fullAlias; rw [String.toList_ofList]; rfl
  · rfl

example : fullAlias (fun s => s ++ "!") "=a<b>" "c" = "a<b>" ∧ fullAlias (fun s => s ++ "!") "a" "c" = "a<c>!" := by decide

/-- Any other alias goes in with its parameters, if any, and in the portable spelling. -/
theorem alias_portable (portable : Name → Name) (c : Char) (r : List Char) (hc : c ≠ '=') (p : Char) (ps : List Char) :
    fullAlias portable (String.ofList (c :: r)) "" = portable (String.ofList (c :: r)) ∧
    fullAlias portable (String.ofList (c :: r)) (String.ofList (p :: ps)) =
      portable (String.ofList (c :: r ++ '<' :: p :: ps ++ ['>'])) := by
  have hp : String.ofList (p :: ps) ≠ "" := by
    intro h
    have := congrArg String.toList h
    rw [String.toList_ofList] at this
    exact absurd this (by simp)
  constructor
  · unfold fullAlias; rw [String.toList_ofList]; simp [hc]
  · unfold fullAlias; rw [String.toList_ofList]
    simp only [if_neg hc, if_neg hp]
    congr 1
    apply String.ext
    simp [String.toList_append, String.toList_ofList]

example : fullAlias (fun s => s ++ "!") "ab" "" = "ab!" ∧ fullAlias (fun s => s ++ "!") "ab" "c,d" = "ab<c,d>!" := by decide

/-- A block whose type is not registered is saved under the name of its type. -/
theorem unknown_type_name (rs : List Reg) (t : Name) (h : ∀ r ∈ rs, ¬ Claims r t) :
    Registry.typeName (regs [] rs) t = t := by
  unfold Registry.typeName
  rw [find_regs_keep _ _ _ h]; rfl

example : Registry.typeName (regs [] [("A", "x")]) "B" = "B" := by decide

/-! ## C109: which block is made -/

/-- A request ends with a block exactly for the blocks that can be made. -/
theorem made_iff (l : Loader) (ok : Ok l) (n : Name) : (∃ k m, l.make k n = .made m) ↔ Makeable l n := by
  constructor
  · rintro ⟨k, m, h⟩
    induction k generalizing n m with
    | zero => cases h
    | succ k ih =>
      rw [Loader.make] at h
      split at h
      · rename_i t ht
        unfold Registry.create at ht
        obtain ⟨x, hx, _⟩ := Option.map_eq_some_iff.1 ht
        exact .builtin ⟨x, find_mem hx⟩
      · split at h
        · rename_i r hr
          exact .plugin (find_mem hr)
        · split at h
          · rename_i d hd
            obtain ⟨a, b⟩ := made_of_each h
            refine .defined (find_mem hd) (fun h0 => by rw [if_pos h0] at a; cases a) fun x hx => ?_
            obtain ⟨m', hm'⟩ := b x hx
            exact ih x m' hm'
          · cases h
  · intro h
    induction h with
    | @builtin n hk =>
      obtain ⟨x, hx⟩ := hk
      refine ⟨1, .builtin x.type, ?_⟩
      rw [Loader.make]; unfold Registry.create; rw [find_of_mem ok.registry hx]; rfl
    | @plugin n r hr =>
      have hf := find_of_mem ok.plugins hr
      obtain ⟨x, hx⟩ := ok.knows _ _ hr
      have hs : (r.create n).isSome := by
        unfold Registry.create; rw [Option.isSome_map, Option.isSome_iff_exists]
        exact mem_keys_iff.1 (List.mem_map_of_mem (f := Prod.fst) hx)
      obtain ⟨t, ht⟩ := Option.isSome_iff_exists.1 hs
      refine ⟨1, ?_⟩
      rw [Loader.make]
      split
      · exact ⟨_, rfl⟩
      · simp only [hf, ht]; exact ⟨_, rfl⟩
    | @defined n d hd hb _ ih =>
      have bound : ∀ xs : List Name, (∀ x ∈ xs, ∃ k m, l.make k x = .made m) → ∃ k, ∀ x ∈ xs, ∃ m, l.make k x = .made m := by
        intro xs
        induction xs with
        | nil => exact fun _ => ⟨0, fun x hx => nomatch hx⟩
        | cons y ys ihy =>
          intro h
          obtain ⟨k1, m1, h1⟩ := h y List.mem_cons_self
          obtain ⟨k2, h2⟩ := ihy fun x hx => h x (List.mem_cons_of_mem _ hx)
          refine ⟨max k1 k2, fun x hx => ?_⟩
          rcases List.mem_cons.1 hx with rfl | hx
          · exact ⟨m1, by rw [make_le (by rw [h1]; nofun) (Nat.le_max_left ..), h1]⟩
          · obtain ⟨m2, h2⟩ := h2 x hx
            exact ⟨m2, by rw [make_le (by rw [h2]; nofun) (Nat.le_max_right ..), h2]⟩
      obtain ⟨k, hk⟩ := bound d.inner ih
      refine ⟨k + 1, ?_⟩
      rw [Loader.make]
      split
      · exact ⟨_, rfl⟩
      · split
        · rename_i r hr
          obtain ⟨x, hx⟩ := ok.knows _ _ (find_mem hr)
          obtain ⟨v, hv⟩ := mem_keys_iff.1 (List.mem_map_of_mem (f := Prod.fst) hx)
          unfold Registry.create; rw [hv]; exact ⟨_, rfl⟩
        · rw [find_of_mem ok.defs hd]
          exact ⟨.defined n, by simp only [each_made hk, if_neg hb]⟩

/-- A loader with a block of each kind and a definition that uses the others. -/
def sample : Loader := ⟨[("A", ⟨"", "A"⟩)], [("P", [("P", ⟨"", "P"⟩)])], [("D", ⟨1, ["A", "P"]⟩), ("S", ⟨1, ["A", "S"]⟩)]⟩

theorem sample_ok : Ok sample := by
  refine ⟨by decide, by decide, by decide, ?_⟩
  intro n r h
  simp only [sample, List.mem_singleton, Prod.mk.injEq] at h
  obtain ⟨rfl, rfl⟩ := h
  exact ⟨_, List.mem_singleton.2 rfl⟩

example : Ok sample ∧ sample.make 2 "D" = .made (.defined "D") := ⟨sample_ok, by decide⟩

/-- A built-in type goes before a plugin's, and that before a definition. -/
theorem precedence (l : Loader) (k : Nat) (n : Name) :
    (∀ t, l.registry.create n = some t → l.make (k + 1) n = .made (.builtin t)) ∧
    (∀ t, l.make (k + 1) n = .made (.plugin t) → l.registry.contains n = false) ∧
    (∀ x, l.make (k + 1) n = .made (.defined x) → x = n ∧ l.isAvailable n = false) := by
  refine ⟨fun t h => by rw [Loader.make, h], fun t h => ?_, fun x h => ?_⟩
  · rw [Loader.make] at h
    split at h
    · cases h
    · rename_i hc
      unfold Registry.contains
      unfold Registry.create at hc
      rw [Option.map_eq_none_iff.1 hc]; rfl
  · rw [Loader.make] at h
    split at h
    · cases h
    · rename_i hc
      split at h
      · split at h <;> cases h
      · rename_i hp
        split at h
        · obtain ⟨a, _⟩ := made_of_each h
          split at a
          · cases a
          · injection a with a; injection a with a
            refine ⟨a.symm, ?_⟩
            unfold Loader.isAvailable Registry.contains
            unfold Registry.create at hc
            rw [Option.map_eq_none_iff.1 hc, hp]; rfl
        · cases h

example : (Loader.mk [("A", ⟨"", "A"⟩)] [("A", [("A", ⟨"", "B"⟩)])] [("A", ⟨1, []⟩)]).make 1 "A" = .made (.builtin "A") := by decide

/-- The blocks listed are in order, each once, and are those with an entry in one of the three places. -/
theorem available_sorted (le : Name → Name → Bool) (total : ∀ a b, (le a b || le b a) = true)
    (trans : ∀ a b c, le a b → le b c → le a c) (anti : ∀ a b, le a b → le b a → a = b) (l : Loader) :
    (l.available le).Pairwise (fun a b => le a b = true ∧ a ≠ b) ∧
    ∀ n, n ∈ l.available le ↔ Knows l.registry n ∨ (∃ r, (n, r) ∈ l.plugins) ∨ ∃ d, (n, d) ∈ l.defs := by
  refine ⟨unique_sorted anti (List.pairwise_mergeSort (fun a b c => trans a b c) (fun a b => total a b) _), fun n => ?_⟩
  unfold Loader.available Knows Registry.keys
  rw [mem_unique, List.mem_mergeSort]
  simp only [List.mem_append, List.mem_map, Prod.exists, exists_and_right, exists_eq_right]
  grind

example : ∀ a b : Name, ((fun a b : Name => decide (a ≤ b)) a b || (fun a b : Name => decide (a ≤ b)) b a) = true := by
  intro a b
  rcases String.le_total a b with h | h <;> simp [h]

/-- Every block that can be made is listed. -/
theorem makeable_listed (le : Name → Name → Bool) (l : Loader) (n : Name) (h : Makeable l n) : n ∈ l.available le := by
  unfold Loader.available Registry.keys
  rw [mem_unique, List.mem_mergeSort]
  simp only [List.mem_append]
  cases h with
  | builtin h => obtain ⟨x, hx⟩ := h; exact .inr (List.mem_map_of_mem (f := Prod.fst) hx)
  | plugin h => exact .inl (.inl (List.mem_map_of_mem (f := Prod.fst) h))
  | defined h _ _ => exact .inl (.inr (List.mem_map_of_mem (f := Prod.fst) h))

/-- A block said to be available can be made. -/
theorem isAvailable_made (l : Loader) (n : Name) (h : l.isAvailable n = true) : Makeable l n := by
  unfold Loader.isAvailable Registry.contains at h
  rcases Bool.or_eq_true _ _ ▸ h with h | h
  · obtain ⟨x, hx⟩ := Option.isSome_iff_exists.1 h
    exact .builtin ⟨x, find_mem hx⟩
  · obtain ⟨x, hx⟩ := Option.isSome_iff_exists.1 h
    exact .plugin (find_mem hx)

example : sample.isAvailable "P" = true := by decide

/-- The converse is false of the code: a block with a definition can be made and is said not to be available. -/
theorem defined_not_available : ∃ l : Loader, Ok l ∧ Makeable l "D" ∧ l.isAvailable "D" = false :=
  ⟨sample, sample_ok, (made_iff _ sample_ok _).1 ⟨2, _, (by decide : sample.make 2 "D" = .made (.defined "D"))⟩, by decide⟩

/-- Where definitions use only definitions of lower rank, every request ends. -/
theorem ranked_ends (l : Loader) (rank : Name → Nat)
    (h : ∀ n d, (n, d) ∈ l.defs → ∀ x ∈ d.inner, rank x < rank n) (n : Name) : l.make (rank n + 1) n ≠ .endless := by
  suffices ∀ k n, rank n < k → l.make k n ≠ .endless from this _ n (Nat.lt_succ_self _)
  intro k
  induction k with
  | zero => intro n hn; omega
  | succ k ih =>
    intro n hn
    rw [Loader.make]
    split
    · nofun
    · split
      · split <;> nofun
      · split
        · rename_i d hd
          have hx : ∀ x ∈ d.inner, l.make k x ≠ .endless := fun x hx =>
            ih x (by have := h n d (find_mem hd) x hx; omega)
          generalize d.inner = xs at hx
          induction xs with
          | nil => rw [each]; split <;> nofun
          | cons x xs ihx =>
            rw [each]
            have h1 := hx x List.mem_cons_self
            split
            · exact ihx fun y hy => hx y (List.mem_cons_of_mem _ hy)
            · nofun
            · rename_i h2; exact absurd h2 h1
        · nofun

example : ∀ n d, (n, d) ∈ [("D", Def.mk 1 ["A", "P"])] → ∀ x ∈ d.inner, (if x = "D" then 1 else 0) < (if n = "D" then 1 else 0) := by
  intro n d h x hx
  simp only [List.mem_singleton, Prod.mk.injEq] at h
  obtain ⟨rfl, rfl⟩ := h
  simp only [List.mem_cons, List.not_mem_nil, or_false] at hx
  rcases hx with rfl | rfl <;> decide

/-- Without that a request need not end: definitions in a set of which each, after parts that can be made, uses
one of the set. -/
theorem cycle_endless (l : Loader) (S : Name → Prop)
    (h : ∀ n, S n → l.isAvailable n = false ∧ ∃ d before x later, find l.defs n = some d ∧
      d.inner = before ++ x :: later ∧ (∀ y ∈ before, l.isAvailable y = true ∧ ∃ m, l.make 1 y = .made m) ∧ S x)
    (n : Name) (hn : S n) (k : Nat) : l.make k n = .endless := by
  induction k generalizing n with
  | zero => rfl
  | succ k ih =>
    obtain ⟨hav, d, b, x, r, hd, hi, hb, hx⟩ := h n hn
    unfold Loader.isAvailable Registry.contains at hav
    rw [Bool.or_eq_false_iff] at hav
    have h1 : l.registry.create n = none := by
      unfold Registry.create; rw [Option.map_eq_none_iff]; simpa using hav.1
    have h2 : find l.plugins n = none := by simpa using hav.2
    rw [Loader.make, h1]
    simp only [h2, hd, hi]
    have : ∀ ok, each (l.make k) ok (b ++ x :: r) = .endless := by
      intro ok
      clear hi
      induction b with
      | nil => rw [List.nil_append, each, ih x hx]
      | cons y b ihb =>
        rw [List.cons_append, each]
        cases k with
        | zero => rfl
        | succ k =>
          obtain ⟨_, m, hm⟩ := hb y List.mem_cons_self
          rw [make_le (by rw [hm]; nofun) (by omega : 1 ≤ k + 1), hm]
          exact ihb fun z hz => hb z (List.mem_cons_of_mem _ hz)
    exact this _

/-- A definition that contains itself is listed as a block, and asking for it never ends. -/
theorem self_definition_endless : ∃ l : Loader, Ok l ∧ (∃ d, ("S", d) ∈ l.defs) ∧ ∀ k, l.make k "S" = .endless := by
  refine ⟨sample, sample_ok, ⟨⟨1, ["A", "S"]⟩, by simp [sample]⟩, fun k => cycle_endless sample (· = "S") ?_ "S" rfl k⟩
  rintro n rfl
  refine ⟨by decide, ⟨1, ["A", "S"]⟩, ["A"], "S", [], by decide, rfl, ?_, rfl⟩
  intro y hy
  rw [List.mem_singleton.1 hy]
  exact ⟨by decide, .builtin "A", by decide⟩

/-! ## C110: loading plugins -/

/-- Every file asked for is opened once however often it is asked for; the files that fail are listed with their
status, and the blocks of all others are there. -/
theorem loads_done (d : Disk) (fs : List Name) : Done d fs (loads d fresh fs) :=
  (loads_done' d fs).done

/-- A disk with a plugin and a broken file. -/
def disk : Disk := fun f => if f = "p" then .ok [("P", ⟨"", "P"⟩)] else .error "broken"

example : (loads disk fresh ["p", "q", "p", "q"]).opened = ["p", "q"] ∧
    (loads disk fresh ["p", "q", "p", "q"]).failed = [("q", "broken")] := by decide

/-- A block that several plugins bring is that of the first file asked for. -/
theorem first_plugin_wins (d : Disk) (before later : List Name) (f : Name) (r : Registry) (n : Name)
    (hf : d f = .ok r) (hn : n ∈ r.map Prod.fst) (hb : ∀ g ∈ before, ∀ q, d g = .ok q → n ∉ q.map Prod.fst) :
    (n, r) ∈ (loads d fresh (before ++ f :: later)).plugins := by
  have keep : ∀ (fs : List Name) (s : Load), find s.plugins n = some r → find (loads d s fs).plugins n = some r := by
    intro fs
    induction fs with
    | nil => intro s h; exact h
    | cons g fs ih =>
      intro s h
      refine ih _ ?_
      show find (s.load d g).1.plugins n = some r
      unfold Load.load Load.start
      by_cases hg : g ∈ s.loaded
      · rw [if_pos hg]; exact h
      · rw [if_neg hg]
        unfold Load.finish
        cases d g with
        | error e => exact h
        | ok q =>
          show find (List.foldl _ s.plugins (Registry.keys q)) n = _
          rw [find_register, h]; simp
  have h0 := loads_done' d before
  have hnone : find (loads d fresh before).plugins n = none := by
    cases hx : find (loads d fresh before).plugins n with
    | none => rfl
    | some q =>
      obtain ⟨g, hg, hq, hnq⟩ := h0.first n q hx
      exact absurd hnq (hb g hg q hq)
  have hfb : f ∉ (loads d fresh before).loaded := fun hc =>
    hb f ((h0.all f).1 ((h0.loaded f).1 hc)) r hf hn
  have : loads d fresh (before ++ f :: later) = loads d ((loads d fresh before).load d f).1 later := by
    unfold loads; rw [List.foldl_append]; rfl
  rw [this]
  refine find_mem (keep _ _ ?_)
  unfold Load.load Load.start
  rw [if_neg hfb]
  simp only [Load.finish, hf, Load.register, find_register, hnone]
  exact if_pos hn

example : (loads (fun f => .ok [("P", ⟨"", f⟩)]) fresh ["a", "b"]).plugins = [("P", [("P", ⟨"", "a"⟩)])] := by decide

/-- Loading gives a loader whose plugins are listed under names they know. -/
theorem loads_ok (d : Disk) (fs : List Name) (registry : List Reg) (defs : List (Name × Def)) (hd : (defs.map Prod.fst).Nodup) :
    Ok ⟨regs [] registry, (loads d fresh fs).plugins, defs⟩ := by
  have h := loads_done' d fs
  refine ⟨nodup_regs registry .nil, h.keys, hd, fun n r hr => ?_⟩
  obtain ⟨f, _, _, x⟩ := h.first n r (find_of_mem h.keys hr)
  obtain ⟨⟨a, b⟩, hab, rfl⟩ := List.mem_map.1 x
  exact ⟨b, hab⟩

/-- Asking for several files calls `done` once, after the last has reported, with the first error in the order
in which they report; before, it is not called.  The order of the reports is free. -/
theorem reports_once (rs : List (Except String Unit)) (h : rs ≠ []) :
    (rs.foldl Many.report (Many.init rs.length)).calls = [first rs] ∧
    ∀ k, k < rs.length → ((rs.take k).foldl Many.report (Many.init rs.length)).calls = [] := by
  refine ⟨report_fold rs rs.length none [] h rfl, fun k hk => report_early _ _ _ _ ?_⟩
  rw [List.length_take]; omega

example : ([.ok (), .error "a", .error "b"].foldl Many.report (Many.init 3)).calls = [.error "a"] := rfl

/-- The two ways of loading a list, where opening is synchronous, do the same: the files are loaded in order and
`done` is called once with the first error. -/
theorem loadAll_once (d : Disk) (s : Load) (fs : List Name) :
    s.loadAll d fs = (loads d s fs, [first (results d s fs)]) ∧ s.loadSeq d none fs = (loads d s fs, [first (results d s fs)]) := by
  constructor
  · unfold Load.loadAll
    by_cases h : fs = []
    · subst h; rfl
    · rw [if_neg h]
      have key : ∀ (fs : List Name) (s : Load) (m : Many),
          fs.foldl (fun p f => ((p.1.load d f).1, p.2.report (p.1.load d f).2)) (s, m)
            = (loads d s fs, (results d s fs).foldl Many.report m) := by
        intro fs
        induction fs with
        | nil => intro s m; rfl
        | cons f fs ih => intro s m; exact ih _ _
      have len : ∀ (fs : List Name) (s : Load), (results d s fs).length = fs.length := by
        intro fs
        induction fs with
        | nil => intro s; rfl
        | cons f fs ih => intro s; simp only [results, List.length_cons, ih]
      have hne : results d s fs ≠ [] := by
        intro hc; apply h; rw [← List.length_eq_zero_iff, ← len fs s, hc]; rfl
      simp only [key]
      rw [← len fs s, (reports_once _ hne).1]
  · have key : ∀ (fs : List Name) (s : Load) (e : Option String), s.loadSeq d e fs
        = (loads d s fs, [match e with | some e => .error e | none => first (results d s fs)]) := by
      intro fs
      induction fs with
      | nil => intro s e; cases e <;> rfl
      | cons f fs ih =>
        intro s e
        show Load.loadSeq d (s.load d f).1 _ fs = _
        rw [ih, results]
        generalize (s.load d f).2 = r
        cases r <;> cases e <;> rfl
    exact key fs s none

example : (fresh.loadAll disk ["p", "q"]).2 = [.error "broken"] := rfl

/-- A load that reports an error did fail, and a file that fails when first asked for is reported. -/
theorem load_result (d : Disk) (fs : List Name) (f : Name) :
    ((loads d fresh fs).load d f).2 = if f ∈ fs then .ok () else (d f).map fun _ => () := by
  have h := loads_done' d fs
  have hm : f ∈ (loads d fresh fs).loaded ↔ f ∈ fs := (h.loaded f).trans (h.all f)
  unfold Load.load Load.start
  by_cases hf : f ∈ fs
  · rw [if_pos (hm.2 hf), if_pos hf]
  · rw [if_neg (fun x => hf (hm.1 x)), if_neg hf]
    unfold Load.finish
    cases d f <;> rfl

/-- That success means the plugin is there is false of the code: a file that failed reports success when it is
asked for again. -/
theorem failed_then_success : ¬ ∀ (d : Disk) (fs : List Name) (f : Name),
    ((loads d fresh fs).load d f).2 = .ok () → ∃ r, d f = .ok r := by
  intro h
  obtain ⟨r, hr⟩ := h disk ["q"] "q" rfl
  cases hr

/-- Where opening is asynchronous: after all loads are started and the openings have ended in any order, every
file was opened once and `done` was called once. -/
theorem async_once (d : Disk) (fs : List Name) (hfs : fs ≠ []) (order : List Name)
    (hp : order.Perm (fresh.startAll (Many.init fs.length) fs).2.2) :
    let a := fresh.startAll (Many.init fs.length) fs
    let z := a.1.finishAll d a.2.1 order
    z.1.opened.Nodup ∧ (∀ f, f ∈ z.1.opened ↔ f ∈ fs) ∧ z.2.calls = [first (order.map fun f => (d f).map fun _ => ())] := by
  have start : ∀ (fs : List Name) (s : Load) (m : Many), (∀ f, f ∈ s.loaded ↔ f ∈ s.opened) → s.opened.Nodup →
      ∃ oks : List (Except String Unit), (∀ r ∈ oks, r = .ok ()) ∧ (s.startAll m fs).2.1 = oks.foldl Many.report m ∧
        oks.length + (s.startAll m fs).2.2.length = fs.length ∧ (s.startAll m fs).1.opened.Nodup ∧
        (∀ f, f ∈ (s.startAll m fs).1.opened ↔ f ∈ s.opened ∨ f ∈ fs) ∧
        (fs ≠ [] → (∀ f ∈ fs, f ∉ s.loaded) → (s.startAll m fs).2.2 ≠ []) := by
    intro fs
    induction fs with
    | nil => intro s m _ hn; exact ⟨[], by simp, rfl, rfl, hn, fun f => by simp [Load.startAll], fun h => absurd rfl h⟩
    | cons f fs ih =>
      intro s m hl hn
      unfold Load.startAll Load.start
      by_cases hf : f ∈ s.loaded
      · rw [if_pos hf]
        obtain ⟨oks, h1, h2, h3, h4, h5, _⟩ := ih s (m.report (.ok ())) hl hn
        refine ⟨.ok () :: oks, by simpa using h1, h2, ?_, h4, ?_, fun _ h => absurd hf (h f List.mem_cons_self)⟩
        · simp only [List.length_cons]; omega
        · intro g; rw [h5 g]; have := hl f; grind
      · rw [if_neg hf]
        have hfo : f ∉ s.opened := fun h => hf ((hl f).2 h)
        obtain ⟨oks, h1, h2, h3, h4, h5, _⟩ := ih { s with loaded := f :: s.loaded, opened := s.opened ++ [f] } m
          (fun g => by have := hl g; simp only [List.mem_cons, List.mem_append, List.not_mem_nil, or_false]; grind)
          (by rw [List.nodup_append]; exact ⟨hn, by simp, fun a ha b hb e => hfo (List.mem_singleton.1 hb ▸ e ▸ ha)⟩)
        refine ⟨oks, h1, h2, ?_, h4, ?_, fun _ _ => List.cons_ne_nil _ _⟩
        · simp only [List.length_cons]; omega
        · intro g; rw [h5 g]; simp only [List.mem_append, List.mem_cons, List.not_mem_nil, or_false]; grind
  have fin : ∀ (order : List Name) (s : Load) (m : Many), (s.finishAll d m order).1.opened = s.opened ∧
      (s.finishAll d m order).2 = (order.map fun f => (d f).map fun _ => ()).foldl Many.report m := by
    intro order
    induction order with
    | nil => intro s m; exact ⟨rfl, rfl⟩
    | cons f fs ih =>
      intro s m
      rw [Load.finishAll]
      obtain ⟨a, b⟩ := ih (s.finish d f).1 (m.report (s.finish d f).2)
      refine ⟨a.trans ?_, b.trans ?_⟩
      · unfold Load.finish; cases d f <;> rfl
      · have : (s.finish d f).2 = (d f).map fun _ => () := by unfold Load.finish; cases d f <;> rfl
        rw [this]; rfl
  obtain ⟨oks, h1, h2, h3, h4, h5, h6⟩ := start fs fresh (Many.init fs.length) (fun f => Iff.rfl) .nil
  intro a z
  obtain ⟨f1, f2⟩ := fin order a.1 a.2.1
  refine ⟨f1 ▸ h4, fun f => by rw [f1]; rw [h5 f]; simp [fresh], ?_⟩
  have hne : order ≠ [] := fun hc => by
    subst hc
    exact h6 hfs (fun f _ h => nomatch h) (List.Perm.nil_eq hp).symm
  rw [f2, h2, ← List.foldl_append]
  have hlen : (oks ++ order.map fun f => (d f).map fun _ => ()).length = fs.length := by
    rw [List.length_append, List.length_map, hp.length_eq, h3]
  rw [← hlen, (reports_once _ (by simp [hne])).1]
  have : ∀ (oks rs : List (Except String Unit)), (∀ r ∈ oks, r = .ok ()) → first (oks ++ rs) = first rs := by
    intro oks rs
    induction oks with
    | nil => intro _; rfl
    | cons r oks ih =>
      intro h
      rw [h r List.mem_cons_self, List.cons_append, first]
      exact ih fun x hx => h x (List.mem_cons_of_mem _ hx)
  rw [this _ _ h1]

example : (fresh.startAll (Many.init 3) ["p", "q", "p"]).2.2 = ["p", "q"] := by decide

/-- The directories are the parts of the text between separators that are not empty. -/
theorem directories_split (s : List Char) : directories (s.length + 1) s = (split s).filter (fun p => !p.isEmpty) := by
  have ne : ∀ s, split s ≠ [] := by
    intro s; cases s with
    | nil => simp [split]
    | cons c s => rw [split]; split <;> (try split) <;> simp
  have sep : ∀ s, split (':' :: s) = [] :: split s := by
    intro s
    rw [split]
    cases h : split s with
    | nil => exact absurd h (ne s)
    | cons p ps => rfl
  have drop : ∀ s : List Char, (split (s.dropWhile (· == ':'))).filter (fun p => !p.isEmpty) = (split s).filter (fun p => !p.isEmpty) := by
    intro s
    induction s with
    | nil => rfl
    | cons c s ih =>
      rw [List.dropWhile_cons]
      by_cases h : c = ':'
      · subst h; rw [sep]; simpa using ih
      · simp [h]
  have word : ∀ s : List Char, split s = s.takeWhile (· != ':') :: (split (s.dropWhile (· != ':'))).tail := by
    intro s
    induction s with
    | nil => rfl
    | cons c s ih =>
      by_cases h : c = ':'
      · subst h; rw [sep]; simp [sep]
      · rw [split, ih]; simp [h]
  have tail : ∀ s : List Char, ((split (s.dropWhile (· != ':'))).tail).filter (fun p => !p.isEmpty)
      = (split (s.dropWhile (· != ':'))).filter (fun p => !p.isEmpty) := by
    intro s
    induction s with
    | nil => rfl
    | cons c s ih =>
      by_cases h : c = ':'
      · subst h; simp [sep]
      · simpa [h] using ih
  suffices ∀ n (s : List Char), s.length < n → directories n s = (split s).filter (fun p => !p.isEmpty) from this _ s (Nat.lt_succ_self _)
  intro n
  induction n with
  | zero => intro s h; omega
  | succ n ih =>
    intro s hn
    rw [directories]
    by_cases hs : s = []
    · subst hs; rfl
    · rw [if_neg hs, ← drop s]
      have hlen : (s.dropWhile (· == ':')).length ≤ s.length := (List.dropWhile_sublist _).length_le
      generalize hu : s.dropWhile (· == ':') = u at hlen ⊢
      by_cases hu0 : u = []
      · subst hu0; simp only [if_true]
        have : 0 < s.length := List.length_pos_iff.2 hs
        rw [ih _ (by simp; omega)]; rfl
      · rw [if_neg hu0]
        obtain ⟨c, r, rfl⟩ := List.exists_cons_of_ne_nil hu0
        have hc : c ≠ ':' := by
          intro h; subst h
          have := List.head?_dropWhile_not (· == ':') s
          rw [hu] at this; simp at this
        have hd : ((c :: r).dropWhile (· != ':')).length < n := by
          rw [List.dropWhile_cons]
          simp only [bne_iff_ne, ne_eq, hc, not_false_eq_true, if_true]
          have := (List.dropWhile_sublist (· != ':') (l := r)).length_le
          rw [List.length_cons] at hlen
          omega
        rw [ih _ hd, word (c :: r), List.filter_cons, tail]
        simp [hc]

example : directories 10 "a::b/c:".toList = ["a".toList, "b/c".toList] := by decide

/-! ## C111: the cache of definitions -/

/-- Where writing never stops in the middle and the times in the index are true, every load gives what the
source has, as far as it can be read.  Missing: writing that stops, see `crash_truncates` and
`full_disk_truncates`. -/
theorem cache_fresh_partial (source : Nat → Option (List UInt8)) (modified : Nat → Option Nat) (hh : Honest source modified)
    (steps : List Step) (hw : ∀ s ∈ steps, s.2 = .full ∨ s.2 = .refused) (ht : steps.Pairwise (fun a b => a.1 ≤ b.1)) :
    history source modified none steps = steps.map fun s => some (source s.1) := by
  have key : ∀ (steps : List Step) (c : Option Cached), (∀ s ∈ steps, s.2 = .full ∨ s.2 = .refused) →
      steps.Pairwise (fun a b => a.1 ≤ b.1) →
      (∀ x, c = some x → source x.time = some x.content ∧ ∀ s ∈ steps, x.time ≤ s.1) →
      history source modified c steps = steps.map fun s => some (source s.1) := by
    intro steps
    induction steps with
    | nil => intros; rfl
    | cons s ss ih =>
      obtain ⟨t, w⟩ := s
      intro c hw ht hc
      rw [history, List.map_cons]
      have hw' : ∀ s ∈ ss, s.2 = .full ∨ s.2 = .refused := fun s hs => hw s (List.mem_cons_of_mem _ hs)
      have hc' : ∀ x, c = some x → source x.time = some x.content ∧ ∀ s ∈ ss, x.time ≤ s.1 :=
        fun x hx => ⟨(hc x hx).1, fun s hs => (hc x hx).2 s (List.mem_cons_of_mem _ hs)⟩
      have hlater : ∀ s ∈ ss, t ≤ s.1 := fun s hs => List.rel_of_pairwise_cons ht hs
      have main : (loadDef c (modified t) (source t) t w).2 = some (source t) ∧
          ((loadDef c (modified t) (source t) t w).1 = c ∨
            ∃ b, source t = some b ∧ (loadDef c (modified t) (source t) t w).1 = some ⟨b, t⟩) := by
        have miss : ∀ w : Write, w = .full ∨ w = .refused → (fetch c (source t) t w).2 = some (source t) ∧
            ((fetch c (source t) t w).1 = c ∨ ∃ b, source t = some b ∧ (fetch c (source t) t w).1 = some ⟨b, t⟩) := by
          intro w hw
          cases source t with
          | none => exact ⟨rfl, .inl rfl⟩
          | some b =>
            rcases hw with rfl | rfl
            · exact ⟨rfl, .inr ⟨b, rfl, rfl⟩⟩
            · exact ⟨rfl, .inl rfl⟩
        have hwt := hw (t, w) List.mem_cons_self
        unfold loadDef
        cases hm : modified t with
        | none => exact miss w hwt
        | some m =>
          cases hcx : c with
          | none => subst hcx; exact miss w hwt
          | some x =>
            by_cases hle : m ≤ x.time
            · simp only [if_pos hle]
              obtain ⟨h1, h2⟩ := hc x hcx
              have := hh t m hm x.time hle (h2 (t, w) List.mem_cons_self)
              exact ⟨by rw [← this, h1], .inl trivial⟩
            · simp only [if_neg hle]
              subst hcx; exact miss w hwt
      rw [main.1]
      congr 1
      rcases main.2 with h | ⟨b, hb, h⟩
      · rw [h]; exact ih c hw' ht.tail hc'
      · rw [h]
        refine ih _ hw' ht.tail fun x hx => ?_
        injection hx with hx; subst hx
        exact ⟨hb, hlater⟩
  exact key steps none hw ht (fun x hx => nomatch hx)

/-- A source that changes at time 5, with a true index. -/
def changing : Nat → Option (List UInt8) := fun t => if t < 5 then some [1, 2] else some [3, 4, 5]
def changed : Nat → Option Nat := fun t => if t < 5 then some 0 else some 5

theorem changing_honest : Honest changing changed := by
  intro t m hm t' h1 h2
  unfold changed at hm
  unfold changing
  by_cases h : t < 5
  · rw [if_pos h, if_pos (by omega)]
  · rw [if_neg h] at hm ⊢
    injection hm with hm
    rw [if_neg (by omega)]

example : history changing changed none [(1, .full), (2, .full), (6, .full), (7, .full)]
    = [some (some [1, 2]), some (some [1, 2]), some (some [3, 4, 5]), some (some [3, 4, 5])] := by decide

/-- With crashes the property is false of the code: when the process dies while the cache file is written, what
is there of it is used from then on, as long as the source does not change. -/
theorem crash_truncates (b : List UInt8) (n : Nat) (m t : Nat) (hm : m ≤ t) (later : List Step) :
    history (fun _ => some b) (fun _ => some m) none ((t, .crash n) :: later)
      = none :: later.map fun _ => some (some (b.take n)) := by
  have : ∀ later : List Step, history (fun _ => some b) (fun _ => some m) (some ⟨b.take n, t⟩) later
      = later.map fun _ => some (some (b.take n)) := by
    intro later
    induction later with
    | nil => rfl
    | cons s ss ih =>
      rw [history, List.map_cons]
      simp only [loadDef, if_pos hm]
      rw [ih]
  rw [history]
  simp only [loadDef, fetch]
  rw [this]

example : history (fun _ => some [1, 2, 3]) (fun _ => some 0) none [(1, .crash 1), (2, .full), (9, .full)]
    = [none, some (some [1]), some (some [1])] := by decide

/-- A full disk does the same, and the load that writes the file gives no sign of it. -/
theorem full_disk_truncates : ∃ source modified, Honest source modified ∧
    history source modified none [(1, .short 1), (2, .full)] = [some (some [1, 2, 3]), some (some [1])] :=
  ⟨fun _ => some [1, 2, 3], fun _ => some 0, fun _ _ _ _ _ _ => rfl, by decide⟩

/-- Times in the index are whole seconds while files have finer times: with the time of the change rounded down,
a file cached earlier in the same second is used although the source has changed since.  Times are in tenths of
a second; the source changes at 15. -/
theorem rounded_time_stale : ∃ source : Nat → Option (List UInt8), (∀ t, 15 ≤ t → source t = source 15) ∧
    history source (fun t => some (if t < 15 then 0 else 15 / 10 * 10)) none [(12, .full), (20, .full)]
      = [some (source 12), some (source 12)] ∧ source 20 ≠ source 12 :=
  ⟨fun t => if t < 15 then some [1] else some [2], fun t h => by simp only [if_neg (Nat.not_lt.2 h)]; rfl, by decide, by decide⟩

/-- An entry without a time that can be read is never taken from the cache. -/
theorem no_time_no_cache (c c' : Option Cached) (b : List UInt8) (t : Nat) :
    (loadDef c none (some b) t .full).2 = some (some b) ∧ (loadDef c none none t .full).2 = some none ∧
    (loadDef c none (some b) t .full).1 = (loadDef c' none (some b) t .full).1 := ⟨rfl, rfl, rfl⟩

end Verif.Plug
