import Verif.FileIo.SrcLemmas
/-!
# C94: a source of files publishes the samples of its files, in order
-/
namespace Verif.FileIo
open Verif.Bytes (Byte)

variable {c : SrcCfg} {files : List File} {Ds : List (List Byte)}

theorem J.calls {s : Src} (hr : Readable c files Ds) (hj : J c Ds s) (rooms : List Nat) :
    J c Ds (s.calls c files rooms).2 ∧ (∀ a ∈ (s.calls c files rooms).1, a = .ok ∨ a = .insufficient ∨ a = .done) ∧
      (.done ∈ (s.calls c files rooms).1 → (s.calls c files rooms).2.active = false) := by
  have still : ∀ (rooms : List Nat) (s : Src), s.active = false → (s.calls c files rooms).2.active = false := by
    intro rooms
    induction rooms with
    | nil => intro s h; exact h
    | cons r rs ih =>
      intro s h
      have hc : (s.call c files r).2 = s := by
        unfold Src.call
        split
        · rfl
        · rfl
      show (Src.calls c files (s.call c files r).2 rs).2.active = false
      rw [hc]
      exact ih s h
  induction rooms generalizing s with
  | nil => exact ⟨hj, nofun, nofun⟩
  | cons r rs ih =>
    obtain ⟨h1, h2⟩ := Src.call_ok hr hj r
    obtain ⟨i1, i2, i3⟩ := ih h1
    refine ⟨i1, ?_, ?_⟩
    · intro a ha
      rcases List.mem_cons.1 ha with rfl | ha
      · rcases h2 with ⟨e, _⟩ | ⟨e, _⟩ | ⟨e, _⟩
        · exact .inr (.inl e)
        · exact .inr (.inr e)
        · exact .inl e
      · exact i2 a ha
    · intro hd
      have hd : Status.done = (s.call c files r).1 ∨ .done ∈ ((s.call c files r).2.calls c files rs).1 := List.mem_cons.1 hd
      rcases hd with hd | hd
      · rcases h2 with ⟨e, _⟩ | ⟨_, e⟩ | ⟨e, _⟩
        · rw [e] at hd; cases hd
        · exact still rs _ e
        · rw [e] at hd; cases hd
      · exact i3 hd

/-- **C94.** Whatever room the calls find, what is published so far is a first part of the samples of the files, each from the offset on and up to
the length, file after file (and round again if asked for); each file whose first sample was published has its start tag there, and there are no other
tags. No call waits for ever or throws. Once a call says that the source is done, all samples were published. -/
theorem source_plays (hr : Readable c files Ds) (rooms : List Nat) :
    ∃ h, (c.again = false → h ≤ Ds.length) ∧
      ((Src.start c files).calls c files rooms).2.out <+: (played c Ds h).flatten ∧
      ((Src.start c files).calls c files rooms).2.tags =
        (if c.trigger then (starts 0 (played c Ds h)).filter (· < ((Src.start c files).calls c files rooms).2.out.length) else []) ∧
      (∀ a ∈ ((Src.start c files).calls c files rooms).1, a = .ok ∨ a = .insufficient ∨ a = .done) ∧
      (.done ∈ ((Src.start c files).calls c files rooms).1 →
        (Ds = [] ∨ c.again = false) ∧ ((Src.start c files).calls c files rooms).2.out = (Ds.map (part c)).flatten) := by
  obtain ⟨h1, h2, h3⟩ := (Src.start_ok hr).calls hr rooms
  generalize ((Src.start c files).calls c files rooms).2 = s at h1 h3
  generalize ((Src.start c files).calls c files rooms).1 = l at h2 h3
  have all : ∀ (xs : List (List Byte)) n, xs.flatten.length ≤ n → (starts 0 xs).filter (· < n) = starts 0 xs := by
    intro xs n hn
    rw [List.filter_eq_self]
    intro q hq
    have := starts_lt xs 0 q hq
    exact decide_eq_true (by omega)
  cases h1 with
  | ended ha ho hp =>
    have hout : s.out = (played c Ds Ds.length).flatten := by rw [hp.out, List.append_nil]
    refine ⟨Ds.length, fun _ => Nat.le_refl _, ?_, ?_, h2, fun _ => ⟨ho, ?_⟩⟩
    · rw [hout]; exact List.prefix_refl _
    · rw [hp.tags, all _ _ (by rw [hout]; exact Nat.le_refl _)]
      simp
    · rw [hout, played_all]
  | runs h cur rem run hat hq =>
    have hpre : cur <+: part c (Ds.getD (h % Ds.length) []) := by
      rcases hat.whole with ⟨r, x1, x2, x3⟩ | ⟨_, x⟩
      · unfold part
        dsimp only
        have hl := congrArg List.length x2
        rw [x1, List.length_take] at hl
        have hk : r ≤ ((Ds.getD (h % Ds.length) []).drop (c.offset * c.size)).length / c.size := (Nat.le_div_iff_mul_le hr.size).2 (by omega)
        have hk2 : r ≤ (if c.length = 0 then ((Ds.getD (h % Ds.length) []).drop (c.offset * c.size)).length / c.size
            else min (((Ds.getD (h % Ds.length) []).drop (c.offset * c.size)).length / c.size) c.length) := by
          split
          · exact hk
          · rcases hat.below with y | y
            · omega
            · rw [x1] at y
              have := Nat.lt_of_mul_lt_mul_right y
              omega
        refine x2 ▸ ?_
        exact List.take_prefix_take_left (Nat.mul_le_mul_right _ hk2)
      · rw [x]; exact List.prefix_refl _
    refine ⟨h + 1, run.once, ?_, ?_, h2, fun hd => ?_⟩
    · rw [run.pub.out, played_succ, List.flatten_append, List.flatten_singleton]
      exact (List.prefix_append_right_inj _).2 hpre
    · rw [run.pub.tags, played_succ, starts_append, List.filter_append, all _ _ (by rw [run.pub.out, List.length_append]; omega)]
      have : (if cur = [] then [] else [(played c Ds h).flatten.length]) =
          (if part c (Ds.getD (h % Ds.length) []) = [] then [] else [0 + (played c Ds h).flatten.length]).filter (· < s.out.length) := by
        rw [run.pub.out, List.length_append, Nat.zero_add]
        by_cases hc : cur = []
        · rw [if_pos hc, hc]
          split <;> simp
        · have : part c (Ds.getD (h % Ds.length) []) ≠ [] := by
            intro e
            rw [e, List.prefix_nil] at hpre
            exact hc hpre
          rw [if_neg hc, if_neg this, List.filter_cons_of_pos]
          · rfl
          · have := List.length_pos_iff.2 hc
            exact decide_eq_true (by omega)
      rw [this]
    · have := h3 hd
      rw [run.active] at this
      cases this

/-- two files of samples of two bytes, the second with half a sample at its end; one sample of each is left out -/
def exSrc : SrcCfg := { size := 2, offset := 1, maxSamples := 2 }
def exFiles : List File := [⟨false, some [0#8, 1#8, 2#8, 3#8, 4#8, 5#8, 6#8, 7#8]⟩, ⟨false, some [8#8, 9#8, 10#8, 11#8, 12#8]⟩]

example : Readable exSrc exFiles [[0#8, 1#8, 2#8, 3#8, 4#8, 5#8, 6#8, 7#8], [8#8, 9#8, 10#8, 11#8, 12#8]] := by
  refine ⟨by decide, rfl, ?_, by decide⟩
  intro i f hf D hD
  match i with
  | 0 => cases hf; cases hD; exact .inl ⟨rfl, rfl⟩
  | 1 => cases hf; cases hD; exact .inl ⟨rfl, rfl⟩
  | _ + 2 => cases hf

example : let r := (Src.start exSrc exFiles).calls exSrc exFiles [5, 1, 5, 5, 2, 9, 9, 9, 3]
    r.1 = [.ok, .ok, .ok, .ok, .ok, .done, .done, .done, .done] ∧ r.2.out = [2#8, 3#8, 4#8, 5#8, 6#8, 7#8, 10#8, 11#8] ∧ r.2.tags = [0, 6] := by decide +kernel

/-! ## when the source comes to an end -/

/-- the messages that the source has not taken yet -/
def left (c : SrcCfg) (files : List File) (s : Src) : Nat :=
  if s.active then s.queue.length + ((files.drop s.next).map fun f => (c.messages f).length).sum else 0

/-- **C94.** With room for each message, a source that is not repeated is done after as many calls as there are messages. -/
theorem source_done (hr : Readable c files Ds) (ha : c.again = false) (rooms : List Nat)
    (hroom : ∀ r ∈ rooms, 0 < r ∧ ∀ f ∈ files, ∀ b, .data b ∈ c.messages f → b.length ≤ r * c.size)
    (hmany : (files.map fun f => (c.messages f).length).sum < rooms.length) :
    .done ∈ ((Src.start c files).calls c files rooms).1 := by
  have hq : ∀ (s : Src) (f : File), f ∈ files → s.queue = c.messages f → ∀ b, .data b ∈ s.queue → ∃ f ∈ files, .data b ∈ c.messages f :=
    fun s f hf e b hb => ⟨f, hf, e ▸ hb⟩
  have key : ∀ (rooms : List Nat) (s : Src), J c Ds s → (∀ b, .data b ∈ s.queue → ∃ f ∈ files, .data b ∈ c.messages f) →
      (∀ r ∈ rooms, 0 < r ∧ ∀ f ∈ files, ∀ b, .data b ∈ c.messages f → b.length ≤ r * c.size) → left c files s < rooms.length →
      .done ∈ (s.calls c files rooms).1 := by
    intro rooms
    induction rooms with
    | nil => intro s _ _ _ h; exact absurd h (Nat.not_lt_zero _)
    | cons r rs ih =>
      intro s hj hin hr2 hl
      obtain ⟨hpos, hfit⟩ := hr2 r List.mem_cons_self
      obtain ⟨h1, h2⟩ := Src.call_ok hr hj r
      show .done ∈ (s.call c files r).1 :: ((s.call c files r).2.calls c files rs).1
      rcases h2 with ⟨_, _, h0 | ⟨b, q, e1, e2⟩⟩ | ⟨e, _⟩ | ⟨e, hact, hact', e2⟩
      · omega
      · obtain ⟨f, hf, hb⟩ := hin b (by rw [e1]; exact List.mem_cons_self)
        have := hfit f hf b hb
        omega
      · rw [e]; exact List.mem_cons_self
      · refine List.mem_cons_of_mem _ (ih _ h1 ?_ (fun r' hr' => hr2 r' (List.mem_cons_of_mem _ hr')) ?_)
        · rcases e2 with ⟨m, e2, _⟩ | e2
          · intro b hb
            exact hin b (by rw [e2]; exact List.mem_cons_of_mem _ hb)
          · obtain ⟨f, x1, x2, _⟩ := e2 ha
            intro b hb
            exact ⟨f, List.mem_of_getElem? x1, x2 ▸ hb⟩
        · have : left c files (s.call c files r).2 < left c files s := by
            unfold left
            rw [if_pos hact', if_pos hact]
            rcases e2 with ⟨m, e2, e3⟩ | e2
            · rw [e2, e3, List.length_cons]; omega
            · obtain ⟨f, x1, x2, x3, x4⟩ := e2 ha
              have hlt : s.next < files.length := by
                rcases Nat.lt_or_ge s.next files.length with y | y
                · exact y
                · rw [List.getElem?_eq_none y] at x1; cases x1
              have hf : f = files[s.next] := by
                rw [List.getElem?_eq_getElem hlt] at x1
                cases x1; rfl
              rw [List.drop_eq_getElem_cons hlt, x2, x3, hf, List.map_cons, List.sum_cons]
              have := List.length_pos_iff.2 x4
              omega
          rw [List.length_cons] at hl
          omega
  cases hf : files with
  | nil =>
    subst hf
    cases rooms with
    | nil => simp at hmany
    | cons r rs =>
      obtain ⟨h, _⟩ := hroom r List.mem_cons_self
      show .done ∈ ((Src.start c []).call c [] r).1 :: _
      have : ((Src.start c []).call c [] r).1 = .done := by
        unfold Src.call
        rw [if_neg (by omega)]
        rfl
      rw [this]
      exact List.mem_cons_self
  | cons f fs =>
    have hq0 : (Src.start c files).queue = c.messages f ∧ (Src.start c files).next = 1 ∧ (Src.start c files).active = true := by
      rw [hf]; exact ⟨rfl, rfl, rfl⟩
    rw [← hf]
    refine key rooms _ (Src.start_ok hr) ?_ hroom ?_
    · intro b hb
      exact ⟨f, by rw [hf]; exact List.mem_cons_self, hq0.1 ▸ hb⟩
    · unfold left
      rw [hq0.1, hq0.2.1, if_pos hq0.2.2]
      rw [hf] at hmany ⊢
      rw [List.map_cons, List.sum_cons] at hmany
      exact hmany

example : (∀ r ∈ [5, 2, 5, 5, 2, 9], 0 < r ∧ ∀ f ∈ exFiles, ∀ b, .data b ∈ exSrc.messages f → b.length ≤ r * exSrc.size) := by
  have h : ∀ f ∈ exFiles, ∀ m ∈ exSrc.messages f, ∀ b, m = .data b → b.length ≤ 4 := by
    have : ∀ f ∈ exFiles, ∀ m ∈ exSrc.messages f, (match m with | .data b => b.length | _ => 0) ≤ 4 := by decide +kernel
    rintro f hf m hm b rfl
    exact this f hf _ hm
  intro r hr
  refine ⟨by revert r; decide, fun f hf b hb => Nat.le_trans (h f hf _ hb b rfl) ?_⟩
  revert r; decide

/-! ## where the source does not come to an end -/

/-- a file that fits into one piece is one message -/
theorem one_message (c : Cfg) (D : List Byte) (hne : D.drop (c.offset.getD 0) ≠ []) (hle : (D.drop (c.offset.getD 0)).length ≤ c.chunkBytes)
    (hal : max 1 c.align ≤ c.chunkBytes) (hu : c.chunkBytes = npos ∨ max 1 c.align ∣ c.chunkBytes) (hd : max 1 c.align ∣ (D.drop (c.offset.getD 0)).length) :
    ((RS.new c false none).runFile (some D)).2.published = [.data (D.drop (c.offset.getD 0)), .final] := by
  have hchunk : c.normalize.chunkBytes = c.chunkBytes := by
    rw [normalize_chunk]
    split <;> omega
  have hlen := List.length_pos_iff.2 hne
  have hcount : ((RS.new c false none).runFile (some D)).2.published.length ≤ 2 := by
    unfold RS.runFile
    rw [show (RS.new c false none).dec.isSome = false from rfl]
    simp only [Bool.false_eq_true, if_false]
    rw [show (RS.new c false none).cfg.offset = c.offset from normalize_offset c, if_neg (by rw [List.length_drop] at hlen; omega)]
    rw [show (RS.new c false none).cfg.chunkBytes = c.chunkBytes from hchunk, RS.fileLoop]
    rw [show (RS.new c false none).look = (false, RS.new c false none) from rfl]
    dsimp only
    rw [Nat.min_eq_right (by omega : (D.drop (c.offset.getD 0)).length ≤ max 1 c.chunkBytes), if_neg (by omega), List.take_length]
    obtain ⟨a, b, e⟩ := loop_count (c := c.normalize) (by rw [hchunk, normalize_unit]; exact hu) (by rw [hchunk, normalize_unit]; exact hal)
      ((D.drop (c.offset.getD 0)).length + 1) (RS.new c false none) (D.drop (c.offset.getD 0)) (Nat.lt_succ_self _) rfl rfl
      (by rw [normalize_unit]; exact hd)
    have e1 : (RS.new c false none).pushSource (D.drop (c.offset.getD 0)) false = (.ok, (RS.new c false none).pushRest (D.drop (c.offset.getD 0))) := by
      simp only [RS.pushSource, RS.look, show (RS.new c false none).cancel = none from rfl, show (RS.new c false none).dec = none from rfl, RS.pushData,
        show (RS.new c false none).pending = [] from rfl, if_neg hne, if_true]
    obtain ⟨t, e2, ht, hdc⟩ := plain_source (data := D.drop (c.offset.getD 0)) (fin := false) (new_held c false none) rfl
    have ht' : t.published.length ≤ 1 ∧ t.pending = [] := by
      rw [e1, RS.pushRest] at e2
      generalize RS.pushLoop ((D.drop (c.offset.getD 0)).length + 1) (RS.new c false none) (D.drop (c.offset.getD 0)) = r at a b e e2
      obtain ⟨r1, r2⟩ := r
      dsimp only at a b e e2
      subst a
      rw [List.append_nil] at e2
      cases e2
      refine ⟨?_, b⟩
      have : pieces (D.drop (c.offset.getD 0)).length c.normalize.chunkBytes ≤ 1 := by
        rw [hchunk]
        unfold pieces
        rcases Nat.lt_or_ge (D.drop (c.offset.getD 0)).length c.chunkBytes with x | x
        · rw [Nat.div_eq_of_lt x]; split <;> omega
        · rw [show (D.drop (c.offset.getD 0)).length = c.chunkBytes from by omega, Nat.div_self (by omega), Nat.mod_self]
          simp
      rw [show (RS.new c false none).published = [] from rfl, List.length_nil] at e
      show r1.published.length ≤ 1
      omega
    rw [e2]
    dsimp only
    rw [if_neg (by omega)]
    dsimp only
    have hcan : t.cancel = none := ht.none
    have hp : t.pushSource [] true = (.ok, t) := by
      simp only [RS.pushSource, RS.look, hcan]
      rw [hdc]
      rfl
    have hl : t.look = (false, t) := by simp only [RS.look, hcan]
    unfold RS.finish
    rw [hl]
    dsimp only
    rw [hp]
    dsimp only
    rw [hl]
    dsimp only
    simp only [RS.pushFinal, RS.publishPending, ht'.2, Bool.not_false, if_true]
    show (t.published ++ [_]).length ≤ 2
    rw [List.length_append, List.length_singleton]
    omega
  obtain ⟨_, ps, e, _, _, h, _⟩ := read_file c none D
  have h := h rfl
  rw [e] at hcount ⊢
  match ps, h with
  | [], h => exact absurd h.symm hne
  | [p], h =>
    rw [List.flatten_singleton] at h
    rw [h]; rfl
  | _ :: _ :: _, _ => simp at hcount

/-- **C94: the source can stop before its end.** With the settings as they come (`max_samples` is the largest number there is) a file is one message: if its
samples do not fit into the output at once, nothing is published, for ever. -/
theorem source_too_large (size : Nat) (D : List Byte) (rooms : List Nat) (h1 : 0 < size) (h2 : size ∣ D.length) (h3 : size ∣ 2 ^ 64)
    (hD : D.length ≤ 2 ^ 64 - size) (hsz : size ≤ 2 ^ 32) (hroom : ∀ r ∈ rooms, r * size < D.length) :
    let c : SrcCfg := { size := size }
    (∀ a ∈ ((Src.start c [⟨false, some D⟩]).calls c [⟨false, some D⟩] rooms).1, a = .insufficient) ∧
      ((Src.start c [⟨false, some D⟩]).calls c [⟨false, some D⟩] rooms).2.out = [] := by
  intro c
  have hq : ∀ (rooms : List Nat) (s : Src) , s.active = true → s.queue = [.data D, .final] → s.out = [] → (∀ r ∈ rooms, r * size < D.length) →
      (∀ a ∈ (s.calls c [⟨false, some D⟩] rooms).1, a = .insufficient) ∧ (s.calls c [⟨false, some D⟩] rooms).2.out = [] := by
    intro rooms
    induction rooms with
    | nil => intro s _ _ h _; exact ⟨nofun, h⟩
    | cons r rs ih =>
      intro s ha hq ho hr
      have e : s.call c [⟨false, some D⟩] r = (.insufficient, s) := by
        unfold Src.call
        by_cases h0 : r = 0
        · rw [if_pos h0]
        · rw [if_neg h0, if_neg (by rw [ha]; nofun), if_neg (by rintro ⟨x, _⟩; exact x rfl), hq]
          have : ¬ D.length ≤ r * c.size := by
            have := hr r List.mem_cons_self
            show ¬ D.length ≤ r * size
            omega
          simp only [poll, if_neg this]
      obtain ⟨i1, i2⟩ := ih s ha hq ho fun r' hr' => hr r' (List.mem_cons_of_mem _ hr')
      simp only [Src.calls, e]
      refine ⟨?_, i2⟩
      intro a hm
      rcases List.mem_cons.1 hm with rfl | hm
      · rfl
      · exact i1 a hm
  by_cases hne : D = []
  · subst hne
    cases rooms with
    | nil => exact ⟨nofun, rfl⟩
    | cons r rs => exact absurd (hroom r List.mem_cons_self) (Nat.not_lt_zero _)
  · have hchunk : c.reader.chunkBytes = 2 ^ 64 - size := by
      have hmod : (2 ^ 64 - 1) * size % 2 ^ 64 = 2 ^ 64 - size := by
        obtain ⟨k, hk⟩ : ∃ k, size = k + 1 := ⟨size - 1, by omega⟩
        subst hk
        rw [show (2 ^ 64 - 1) * (k + 1) = (2 ^ 64 - (k + 1)) + 2 ^ 64 * k from by omega, Nat.add_mul_mod_self_left]
        exact Nat.mod_eq_of_lt (by omega)
      show max size ((2 ^ 64 - 1) * size % 2 ^ 64) = _
      rw [hmod]
      omega
    have hdvd : size ∣ 2 ^ 64 - size := Nat.dvd_sub h3 (Nat.dvd_refl _)
    have hmax : max 1 c.reader.align = size := by
      show max 1 size = size
      omega
    have hoff : c.reader.offset.getD 0 = 0 := by
      show 0 * size = 0
      omega
    have := one_message c.reader D (by rw [hoff]; exact hne) (by rw [hoff, hchunk]; exact hD) (by rw [hmax, hchunk]; omega)
      (by rw [hmax, hchunk]; exact .inr hdvd) (by rw [hoff, hmax]; exact h2)
    rw [hoff, List.drop_zero] at this
    exact hq rooms _ rfl this rfl hroom

example : let c : SrcCfg := { size := 2 }
    let D : List File := [⟨false, some [0#8, 1#8, 2#8, 3#8, 4#8, 5#8]⟩]
    ((Src.start c D).calls c D [2, 2, 2, 2]).1 = [.insufficient, .insufficient, .insufficient, .insufficient] ∧
      ((Src.start c D).calls c D [3, 3]).1 = [.ok, .done] := by decide +kernel

/-- **C94: a compressed file of samples of more than one byte is never read.** With the settings as they come, the reader dies before it sends
anything, and the first call waits for ever. -/
theorem source_gzip_waits (size : Nat) (F : List Byte) (room : Nat) (h1 : 1 < size) (hsz : size ≤ 2 ^ 32) (hF : F ≠ []) (hroom : 0 < room) :
    let c : SrcCfg := { size := size }
    ((Src.start c [⟨true, some F⟩]).call c [⟨true, some F⟩] room).1 = .waits := by
  intro c
  have hchunk : c.reader.chunkBytes = 2 ^ 64 - size := by
    have hmod : (2 ^ 64 - 1) * size % 2 ^ 64 = 2 ^ 64 - size := by
      obtain ⟨k, hk⟩ : ∃ k, size = k + 1 := ⟨size - 1, by omega⟩
      subst hk
      rw [show (2 ^ 64 - 1) * (k + 1) = (2 ^ 64 - (k + 1)) + 2 ^ 64 * k from by omega, Nat.add_mul_mod_self_left]
      exact Nat.mod_eq_of_lt (by omega)
    show max size ((2 ^ 64 - 1) * size % 2 ^ 64) = _
    rw [hmod]
    omega
  have hbig : vectorMax < c.reader.normalize.codecChunk := by
    unfold Cfg.codecChunk
    rw [normalize_chunk, hchunk]
    have : ¬ (2 ^ 64 - size = npos) := by unfold npos; omega
    rw [if_neg this]
    have h3 : ¬ (max (max 1 c.reader.align) (2 ^ 64 - size) = npos) := by
      show ¬ (max (max 1 size) (2 ^ 64 - size) = npos)
      unfold npos; omega
    rw [if_neg h3]
    unfold vectorMax
    omega
  have hq : (Src.start c [⟨true, some F⟩]).queue = [] := by
    show ((RS.new c.reader true none).runFile (some F)).2.published = []
    exact (gzip_huge_chunk c.reader F hF hbig).2.1
  unfold Src.call
  rw [if_neg (by omega), if_neg (by rw [show (Src.start c [⟨true, some F⟩]).active = true from rfl]; nofun), if_neg (by rintro ⟨x, _⟩; exact x rfl), hq]
  rfl

end Verif.FileIo
