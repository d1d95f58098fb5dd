import Verif.Yaml.Props
/-!
# A check for values that come back from their text

Used for concrete cases only.
-/
namespace Verif.Yaml

variable {F : Type}

/-- no comment sign, no special first character, no space at the end -/
def keyB (k : List Char) : Bool := !k.contains '#' && !((k.head?.map [' ', '-', '"', '\'', '{', '['].contains).getD false) && k.getLast? != some ' '

theorem keyB_clean (k : List Char) (h : keyB k = true) : KeyClean k := by
  intro _ _
  simp only [keyB, Bool.and_eq_true, Bool.not_eq_true', bne_iff_ne] at h
  obtain ⟨⟨h1, h2⟩, h3⟩ := h
  refine ⟨by simpa using h1, ?_, h3⟩
  intro c hc
  rw [hc] at h2
  simpa using h2

instance (t : IntTy) : Decidable (Known t) := by unfold Known; infer_instance

instance (t : IntTy) (v : Int) : Decidable (InRange t v) := by unfold InRange; infer_instance

/-- a scalar that comes back -/
def scaB : Sca F → Bool
  | .bool _ => true
  | .int t v => decide (Known t) && decide (InRange t v)
  | _ => false

mutual
/-- strings of one line, integers and what is made of them -/
def cleanB : Val F → Bool
  | .null => true
  | .sca s => scaB s
  | .str s => !s.contains '\n'
  | .list vs => cleanBs vs
  | .map es => (es.map Prod.fst).all keyB && decide ((es.map Prod.fst).Nodup) && cleanBm es
  | _ => false
def cleanBs : List (Val F) → Bool
  | [] => true
  | v :: vs => cleanB v && cleanBs vs
def cleanBm : List (List Char × Val F) → Bool
  | [] => true
  | (_, v) :: es => cleanB v && cleanBm es
end

mutual
theorem cleanB_clean (fl : Floats F) : ∀ v : Val F, cleanB v = true → Clean fl v
  | .null, _ => .null
  | .sca s, h => .sca (by
    cases s <;> simp [cleanB, scaB] at h
    · trivial
    · exact h)
  | .str s, h => .str (fun hn => by simp [cleanB] at h; exact absurd hn h)
  | .strs _, h => by simp [cleanB] at h
  | .arr _ _, h => by simp [cleanB] at h
  | .list vs, h => .list (cleanBs_clean fl vs (by simpa [cleanB] using h))
  | .map es, h => by
    simp only [cleanB, Bool.and_eq_true, decide_eq_true_eq, List.all_eq_true] at h
    exact .map (fun e he => keyB_clean _ (h.1.1 _ (List.mem_map_of_mem he))) (cleanBm_clean fl es h.2) h.1.2
theorem cleanBs_clean (fl : Floats F) : ∀ vs : List (Val F), cleanBs vs = true → ∀ v ∈ vs, Clean fl v
  | [], _ => by simp
  | v :: vs, h => by
    simp only [cleanBs, Bool.and_eq_true] at h
    have hv := cleanB_clean fl v h.1
    intro w hw
    rcases List.mem_cons.1 hw with rfl | hw
    · exact hv
    · exact cleanBs_clean fl vs h.2 w hw
theorem cleanBm_clean (fl : Floats F) : ∀ es : List (List Char × Val F), cleanBm es = true → ∀ e ∈ es, Clean fl e.2
  | [], _ => by simp
  | (_, v) :: es, h => by
    simp only [cleanBm, Bool.and_eq_true] at h
    have hv := cleanB_clean fl v h.1
    intro w hw
    rcases List.mem_cons.1 hw with rfl | hw
    · exact hv
    · exact cleanBm_clean fl es h.2 w hw
end

end Verif.Yaml
