import Verif.LifeCycle.Spec
namespace Verif.LifeCycle

theorem stores_append (a b : List Event) : stores (a ++ b) = stores a ++ stores b := by
  induction a with
  | nil => rfl
  | cons x xs ih => cases x <;> simp [stores, ih]

theorem hooks_append (a b : List Event) : hooks (a ++ b) = hooks a ++ hooks b := by
  induction a with
  | nil => rfl
  | cons x xs ih => cases x <;> simp [hooks, ih]

theorem Path.append {R : State → State → Prop} {s t u : State} {p q : List (State × State)}
    (h1 : Path R s p t) (h2 : Path R t q u) : Path R s (p ++ q) u := by
  induction p generalizing s with
  | nil => simp [Path] at h1; subst h1; simpa using h2
  | cons x xs ih =>
    obtain ⟨a, b⟩ := x
    simp only [Path, List.cons_append] at h1 ⊢
    exact ⟨h1.1, h1.2.1, ih h1.2.2⟩

theorem valid_documented {a b : State} (h : isValidTransition a b = true) (hne : a ≠ b) :
    Diagram a b ∨ Extra a b := by
  cases a <;> cases b <;> simp_all [isValidTransition] <;>
    first
    | exact Or.inl (by constructor)
    | exact Or.inr (by constructor)

def Doc (a b : State) : Prop := Diagram a b ∨ Extra a b

theorem change_path (has : Hook → Bool) (s dst : State) (run : State → State × List Event × Bool)
    (hrun : ∀ s0, Path Doc s0 (stores (run s0).2.1) (run s0).1) :
    Path Doc s (stores (change has s dst run).2.1) (change has s dst run).1 := by
  unfold change
  split
  · simp [stores, Path]
  · split
    · simp [stores, Path]
    · rename_i h1 h2
      have hv : isValidTransition s dst = true := by simpa using h2
      have hne : s ≠ dst := by
        intro h; subst h; simp at h1
      have hd : Doc s dst := valid_documented hv hne
      split
      · simp [stores, Path, hd]
      · have hr := hrun dst
        generalize run dst = r at hr
        obtain ⟨s', ev, ok⟩ := r
        simp only at hr ⊢
        split
        · simp only [stores_append, stores, List.append_nil, List.cons_append, List.nil_append, Path,
            true_and]
          exact ⟨hd, hr⟩
        · simp only [stores_append, stores, List.cons_append, List.nil_append, Path, true_and]
          refine ⟨hd, hr.append ?_⟩
          exact ⟨rfl, Or.inl (.toError _), rfl⟩

theorem runBeh_path (has : Hook → Bool) (b : Beh) :
    ∀ s, Path Doc s (stores (runBeh has b s).2.1) (runBeh has b s).1 := by
  induction b with
  | ret => intro s; simp [runBeh, stores, Path]
  | throw => intro s; simp [runBeh, stores, Path]
  | req dst inner rest ih1 ih2 =>
    intro s
    simp only [runBeh, stores_append]
    exact (change_path has s dst _ ih1).append (ih2 _)

theorem runAll_path (has : Hook → Bool) (l : List (State × Beh)) :
    ∀ s, Path Doc s (stores (runAll has l s).2) (runAll has l s).1 := by
  induction l with
  | nil => intro s; simp [runAll, stores, Path]
  | cons x xs ih =>
    intro s
    obtain ⟨dst, b⟩ := x
    simp only [runAll, stores_append]
    exact (change_path has s dst _ (runBeh_path has b)).append (ih _)

/-! ### Hook ordering for non re-entrant hooks -/

/-- What the last completed hook can have been in each state (all hooks implemented, no re-entrancy). -/
def LastOk : State → Option (Hook × Bool) → Prop
  | .idle, p => p = none
  | .initialised, p => p = some (.init, true) ∨ p = some (.reset, true)
  | .running, p => p = some (.start, true) ∨ p = some (.resume, true)
  | .requestedPause, p => p = some (.pause, true)
  | .paused, p => p = some (.pause, true)
  | .requestedStop, p => p = some (.stop, true)
  | .stopped, _ => True
  | .error, _ => True

theorem getLast?_append_ne {α} (a b : List α) (h : b ≠ []) : (a ++ b).getLast? = b.getLast? := by
  cases b with
  | nil => exact absurd rfl h
  | cons x xs => simp [List.getLast?_append, List.getLast?_cons]

/-- one plain request: either no hook and `LastOk` is preserved, or exactly one permitted hook. -/
theorem change_plain (s dst : State) (b : Beh) (hb : b = .ret ∨ b = .throw) (p : Option (Hook × Bool))
    (hp : LastOk s p) :
    (hooks (change (fun _ => true) s dst (runBeh (fun _ => true) b)).2.1 = [] ∧
      LastOk (change (fun _ => true) s dst (runBeh (fun _ => true) b)).1 p) ∨
    (∃ h ok, hooks (change (fun _ => true) s dst (runBeh (fun _ => true) b)).2.1 = [(h, ok)] ∧
      MayFollow p h ∧
      LastOk (change (fun _ => true) s dst (runBeh (fun _ => true) b)).1 (some (h, ok))) := by
  rcases hb with rfl | rfl <;> cases s <;> cases dst <;>
    simp_all [change, runBeh, isValidTransition, selectHook, hooks, LastOk, MayFollow] <;>
    (try (rcases hp with rfl | rfl <;> simp))

end Verif.LifeCycle
