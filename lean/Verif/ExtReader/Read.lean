import Verif.ExtReader.Lemmas
/-! What one call of `read_externals_into_buffers` does. -/
namespace Tycho.ExtReader
variable {B : Type}

theorem todo_cons (ours : Nat → Bool) (t ct : Nat) (p : Key) (a : Anchor) (l : List Anchor) :
    todo ours t ct p (a :: l) =
      a.items.filter (fun i => ours i.msg.dst && decide (p < i.key) && !expiredAt t ct i.ct) ++ todo ours t ct p l := by
  simp [todo, stream_cons]

theorem mem_stream {l : List Anchor} {i : Item} : i ∈ stream l ↔ ∃ a ∈ l, i ∈ a.items := by simp [stream]

theorem items_key {a : Anchor} {i : Item} (h : i ∈ a.items) : i.key.a = a.id ∧ 0 < i.key.o ∧ i.key.o ≤ a.exts.length ∧ i.ct = a.ct := by
  have := itemsFrom_key h; simpa using this

/-- Two positions before all anchors. -/
theorem todo_shift (ours : Nat → Bool) (t ct : Nat) (p q : Key) (l : List Anchor)
    (h : ∀ a ∈ l, ∀ i ∈ a.items, (p < i.key ↔ q < i.key)) : todo ours t ct p l = todo ours t ct q l := by
  unfold todo
  apply List.filter_congr
  intro i hi
  obtain ⟨a, ha, hia⟩ := mem_stream.1 hi
  have := h a ha i hia
  rw [decide_eq_decide.2 this]

theorem before_anchor {p : Key} {a : Anchor} (h : p.a < a.id) {i : Item} (hi : i ∈ a.items) : p < i.key := by
  obtain ⟨h1, _⟩ := items_key hi
  rw [Key.lt_def, h1]; exact Or.inl h

/-- The messages of an anchor behind an offset within it. -/
theorem items_behind (a : Anchor) (off : Nat) (hoff : off ≤ a.exts.length) (p : Key)
    (hp : ∀ i ∈ a.items, (p < i.key ↔ off < i.key.o)) (q : Item → Bool) :
    a.items.filter (fun i => q i && decide (p < i.key)) = (itemsFrom a.id a.ct (a.exts.drop off) off).filter q := by
  rw [← itemsFrom_drop a.exts off hoff q]
  apply List.filter_congr
  intro i hi
  rw [decide_eq_decide.2 (hp i hi)]

/-- An anchor that is not needed any more at a position. -/
def Passed (timeout ct : Nat) (p : Key) (a : Anchor) : Prop :=
  a.id < p.a ∨ (a.id = p.a ∧ (a.exts.length ≤ p.o ∨ expiredAt timeout ct a.ct = true))

theorem Passed.mono {timeout ct : Nat} {p q : Key} {a : Anchor} (h : Passed timeout ct p a) (hpq : p ≤ q) : Passed timeout ct q a := by
  rw [Key.le_def] at hpq
  rcases h with h | ⟨h1, h2 | h2⟩
  · left; omega
  · rcases hpq with h3 | ⟨h3, h4⟩
    · left; omega
    · right; exact ⟨by omega, Or.inl (by omega)⟩
  · rcases hpq with h3 | ⟨h3, h4⟩
    · left; omega
    · right; exact ⟨by omega, Or.inr h2⟩

structure LoopSpec (e : Env B) (mode : RMode) (was prevTo : Key) (ct : Nat) (cache : List Anchor) (s : Rd B) (o : Out B)
    (T : List Item) : Prop where
  put : o.rd.put = s.put ++ tagged e T
  buf : o.rd.buf = addAll e s.buf T
  filled : o.rd.filled = e.ops.full o.rd.buf
  notStuck : o.stuck = false
  popped : ∃ P, cache = P ++ o.cache ∧ ∀ a ∈ P, Passed e.timeout ct o.rd.cur a
  split : todo e.ours e.timeout ct was cache = T ++ todo e.ours e.timeout ct o.rd.cur o.cache
  le : s.cur ≤ o.rd.cur
  below : ∀ i ∈ T, i.key ≤ o.rd.cur
  stopped : o.fully = false → o.rd.filled = true
  atEnd : mode = .toTheEnd → o.fully = true → o.cache = []
  to : o.rd.to = s.to ∨ o.rd.to = maxKey s.to o.rd.cur
  toEq : s.to = s.cur → o.rd.to = o.rd.cur
  off : ∀ a ∈ o.cache, a.id = o.rd.cur.a → o.rd.cur.o < a.exts.length
  ahead : ∀ a ∈ o.cache, o.rd.cur.a ≤ a.id
  prevBelow : mode = .toPrev → ∀ i ∈ T, i.key ≤ prevTo
  curIn : o.rd.cur = s.cur ∨ ∃ a ∈ cache, o.rd.cur.a = a.id ∧ o.rd.cur.o ≤ a.exts.length
  prevAll : mode = .toPrev → o.fully = true → ∀ i ∈ todo e.ours e.timeout ct o.rd.cur o.cache, prevTo < i.key

theorem readLoop_spec (e : Env B) (mode : RMode) (procTo : Nat → Key) (was prevTo : Key) (ct : Nat)
    (hproc : ∀ par, procTo par ≤ was) (hprev : mode = .toPrev → was ≤ prevTo) :
    ∀ (cache : List Anchor) (s : Rd B), Sorted cache → (∀ a ∈ cache, a.id = was.a → was.o < a.exts.length) →
      (∀ a ∈ cache, a.exts ≠ []) → s.filled = e.ops.full s.buf → was ≤ s.cur → (s.cur = was ∨ ∀ a ∈ cache, s.cur.a < a.id) →
      ∃ T, LoopSpec e mode was prevTo ct cache s (readLoop e mode procTo was prevTo ct cache s) T := by
  intro cache
  induction cache with
  | nil =>
    intro s _ _ _ hf hle _
    exact ⟨[], by constructor <;> simp [readLoop, tagged, addAll, todo, stream, hf, Key.le_refl]⟩
  | cons a rest ih =>
    intro s hsort hw hne hf hle hpos
    have hne' : ∀ c ∈ rest, c.exts ≠ [] := fun c hc => hne c (List.mem_cons_of_mem _ hc)
    have hrest : ∀ c ∈ rest, a.id < c.id := (List.pairwise_cons.1 hsort).1
    have hsort' : Sorted rest := (List.pairwise_cons.1 hsort).2
    have hw' : ∀ c ∈ rest, c.id = was.a → was.o < c.exts.length := fun c hc => hw c (List.mem_cons_of_mem _ hc)
    have hpos' : s.cur = was ∨ ∀ c ∈ rest, s.cur.a < c.id := hpos.imp id (fun h c hc => h c (List.mem_cons_of_mem _ hc))
    unfold readLoop
    by_cases hlt : a.id < was.a
    · rw [if_pos hlt]
      obtain ⟨T, hT⟩ := ih s hsort' hw' hne' hf hle hpos'
      have hnone : a.items.filter (fun i => e.ours i.msg.dst && decide (was < i.key) && !expiredAt e.timeout ct i.ct) = [] := by
        rw [List.filter_eq_nil_iff]
        intro i hi hc
        obtain ⟨h1, _⟩ := items_key hi
        simp only [Bool.and_eq_true, decide_eq_true_eq] at hc
        have := hc.1.2
        rw [Key.lt_def] at this; omega
      exact ⟨T, { hT with
        popped := by
          obtain ⟨P, h1, h2⟩ := hT.popped
          refine ⟨a :: P, congrArg (a :: ·) h1, ?_⟩
          intro c hc
          rcases List.mem_cons.1 hc with h | h
          · subst h
            left
            have h3 := Key.le_trans hle hT.le
            rw [Key.le_def] at h3; omega
          · exact h2 c h
        split := by rw [todo_cons, hnone, List.nil_append, hT.split]
        curIn := hT.curIn.imp id (fun ⟨c, hc, h⟩ => ⟨c, List.mem_cons_of_mem _ hc, h⟩) }⟩
    · rw [if_neg hlt]
      simp only
      generalize hoff : (if a.id = was.a then was.o else 0) = off
      have hoffle : off ≤ a.exts.length := by
        rw [← hoff]; split
        · exact Nat.le_of_lt (hw a List.mem_cons_self ‹_›)
        · exact Nat.zero_le _
      have hwaskey : ∀ i ∈ a.items, (was < i.key ↔ off < i.key.o) := by
        intro i hi
        obtain ⟨h1, h2, _⟩ := items_key hi
        rw [← hoff, Key.lt_def, h1]
        split <;> omega
      have hcurkey : ∀ i ∈ a.items, (s.cur < i.key ↔ off < i.key.o) := by
        intro i hi
        rcases hpos with h | h
        · rw [h]; exact hwaskey i hi
        · obtain ⟨h1, h2, _⟩ := items_key hi
          have h3 := h a List.mem_cons_self
          rw [Key.le_def] at hle
          rw [← hoff, if_neg (by omega : ¬ a.id = was.a), Key.lt_def, h1]
          omega
      have hcurle : s.cur ≤ ⟨a.id, off⟩ := by
        rw [← hoff, Key.le_def]
        rcases hpos with h | h
        · rw [h]; simp only; split <;> omega
        · exact Or.inl (h a List.mem_cons_self)
      have hwasle : was ≤ ⟨a.id, off⟩ := Key.le_trans hle hcurle
      by_cases hexp : expiredAt e.timeout ct a.ct = true
      · rw [if_pos hexp]
        have hnone : a.items.filter (fun i => e.ours i.msg.dst && decide (was < i.key) && !expiredAt e.timeout ct i.ct) = [] := by
          rw [List.filter_eq_nil_iff]
          intro i hi hc
          obtain ⟨_, _, _, h4⟩ := items_key hi
          rw [h4, hexp] at hc
          simp at hc
        obtain ⟨T, hT⟩ := ih
          { s with reached := reachedAt prevTo a.id off, cur := ⟨a.id, off⟩, to := maxKey s.to ⟨a.id, off⟩ }
          hsort' hw' hne' hf hwasle (Or.inr hrest)
        refine ⟨T, { hT with
          popped := by
            obtain ⟨P, h1, h2⟩ := hT.popped
            refine ⟨a :: P, congrArg (a :: ·) h1, ?_⟩
            intro c hc
            rcases List.mem_cons.1 hc with h | h
            · subst h
              exact Passed.mono (Or.inr ⟨rfl, Or.inr hexp⟩) hT.le
            · exact h2 c h
          split := by rw [todo_cons, hnone, List.nil_append, hT.split]
          le := Key.le_trans hcurle hT.le
          curIn := by
            rcases hT.curIn with h | ⟨c, hc, h⟩
            · exact Or.inr ⟨a, List.mem_cons_self, by rw [h], by rw [h]; exact hoffle⟩
            · exact Or.inr ⟨c, List.mem_cons_of_mem _ hc, h⟩
          to := ?_
          toEq := ?_ }⟩
        · have h1 := hT.le
          simp only at h1
          have h2 : maxKey (maxKey s.to ⟨a.id, off⟩) ((readLoop e mode procTo was prevTo ct rest
              { s with reached := reachedAt prevTo a.id off, cur := ⟨a.id, off⟩, to := maxKey s.to ⟨a.id, off⟩ }).rd.cur) =
              maxKey s.to ((readLoop e mode procTo was prevTo ct rest
              { s with reached := reachedAt prevTo a.id off, cur := ⟨a.id, off⟩, to := maxKey s.to ⟨a.id, off⟩ }).rd.cur) := by
            generalize (readLoop e mode procTo was prevTo ct rest _).rd.cur = q at h1 ⊢
            by_cases hx : s.to ≤ ⟨a.id, off⟩
            · rw [maxKey_eq_right hx, maxKey_eq_right h1, maxKey_eq_right (Key.le_trans hx h1)]
            · rw [maxKey_eq_left (Key.le_of_lt (Key.not_le.1 hx))]
          rcases hT.to with h | h
          · simp only at h
            by_cases hx : s.to ≤ ⟨a.id, off⟩
            · right
              rw [h, maxKey_eq_right hx]
              have h3 := hT.toEq (by simp only; exact maxKey_eq_right hx)
              rw [h, maxKey_eq_right hx] at h3
              rw [← h3, maxKey_eq_right hx]
            · left; rw [h, maxKey_eq_left (Key.le_of_lt (Key.not_le.1 hx))]
          · right; rw [h, h2]
        · intro h
          exact hT.toEq (by simp only; rw [h]; exact maxKey_eq_right hcurle)
      · rw [if_neg hexp]
        have hexp' : expiredAt e.timeout ct a.ct = false := by simpa using hexp
        have hitems : a.items.filter (fun i => e.ours i.msg.dst && decide (was < i.key) && !expiredAt e.timeout ct i.ct) =
            (itemsFrom a.id a.ct (a.exts.drop off) off).filter (fun i => e.ours i.msg.dst) := by
          rw [← items_behind a off hoffle was hwaskey]
          apply List.filter_congr
          intro i hi
          obtain ⟨_, _, _, h4⟩ := items_key hi
          rw [h4, hexp']; simp
        obtain ⟨T, b1, b2, b3, b4, b5, b6, b7, b8, b9, b10, b11, b12⟩ := import_spec e mode procTo prevTo a.id a.ct (a.exts.drop off) off
          { s with reached := reachedAt prevTo a.id off } hf rfl
          (fun par k hk => Key.lt_of_le_of_lt (Key.le_trans (hproc par) hwasle) (by rw [Key.lt_def]; simp; omega))
        generalize importMsgs e mode procTo prevTo a.id a.ct (a.exts.drop off) off { s with reached := reachedAt prevTo a.id off } = r
          at b1 b2 b3 b4 b5 b6 b7 b8 b9 b10 b11 b12 ⊢
        have b4' : r.1 ≤ a.exts.length := by rw [List.length_drop] at b4; omega
        -- position after the anchor
        have hcur' : s.cur ≤ r.2.cur := by
          rw [b8]; split
          · exact Key.le_refl _
          · exact Key.le_trans hcurle (by rw [Key.le_def]; simp; omega)
        have hcura : r.2.cur.a ≤ a.id := by
          rw [b8]; split
          · simp only; rw [Key.le_def] at hcurle; simp only at hcurle; omega
          · simp
        have hcurkey' : ∀ i ∈ a.items, (r.2.cur < i.key ↔ r.1 < i.key.o) := by
          intro i hi
          rw [b8]; split
          · rename_i h; rw [h]; exact hcurkey i hi
          · obtain ⟨h1, _⟩ := items_key hi
            rw [Key.lt_def, h1]; simp
        have hsplit : (itemsFrom a.id a.ct (a.exts.drop off) off).filter (fun i => e.ours i.msg.dst) =
            T ++ (itemsFrom a.id a.ct (a.exts.drop r.1) r.1).filter (fun i => e.ours i.msg.dst) := by
          have h1 : a.exts.drop off = (a.exts.drop off).take (r.1 - off) ++ a.exts.drop r.1 := by
            have := (List.take_append_drop (r.1 - off) (a.exts.drop off)).symm
            rwa [List.drop_drop, show off + (r.1 - off) = r.1 by omega] at this
          have h2 : ((a.exts.drop off).take (r.1 - off)).length = r.1 - off := by
            rw [List.length_take, List.length_drop]; omega
          rw [b5]
          rw [h1, itemsFrom_append, h2, show off + (r.1 - off) = r.1 by omega, List.filter_append, List.filter_append]
          rw [List.append_assoc]
          congr 1
          · apply List.filter_congr
            intro i hi
            obtain ⟨_, _, h3, _⟩ := itemsFrom_key hi
            rw [h2] at h3
            simp [show i.key.o ≤ r.1 by omega]
          · have : (itemsFrom a.id a.ct (a.exts.drop r.1) r.1).filter (fun i => e.ours i.msg.dst && decide (i.key.o ≤ r.1)) = [] := by
              rw [List.filter_eq_nil_iff]
              intro i hi hc
              obtain ⟨_, h3, _, _⟩ := itemsFrom_key hi
              simp at hc; omega
            rw [this, List.nil_append]
        have hitems' : a.items.filter (fun i => e.ours i.msg.dst && decide (r.2.cur < i.key) && !expiredAt e.timeout ct i.ct) =
            (itemsFrom a.id a.ct (a.exts.drop r.1) r.1).filter (fun i => e.ours i.msg.dst) := by
          rw [← items_behind a r.1 b4' r.2.cur hcurkey']
          apply List.filter_congr
          intro i hi
          obtain ⟨_, _, _, h4⟩ := items_key hi
          rw [h4, hexp']; simp
        have hshift : todo e.ours e.timeout ct was rest = todo e.ours e.timeout ct r.2.cur rest := by
          apply todo_shift
          intro c hc i hi
          have h1 := hrest c hc
          have h2 : was.a ≤ a.id := by omega
          exact ⟨fun _ => before_anchor (by omega) hi, fun _ => before_anchor (by omega) hi⟩
        have hbelow : ∀ i ∈ T, i.key ≤ r.2.cur := by
          intro i hi
          rw [b5] at hi
          obtain ⟨hi1, hi2⟩ := List.mem_filter.1 hi
          obtain ⟨h1, h2, _, _⟩ := itemsFrom_key hi1
          simp only [Bool.and_eq_true, decide_eq_true_eq] at hi2
          rw [b8, if_neg (by omega : ¬ r.1 = off), Key.le_def]; simp only; omega
        have hprevBelow : mode = .toPrev → ∀ i ∈ T, i.key ≤ prevTo := by
          intro hm i hi
          have hwp := hprev hm
          rw [b5] at hi
          obtain ⟨hi1, hi2⟩ := List.mem_filter.1 hi
          obtain ⟨h1, h2, _, _⟩ := itemsFrom_key hi1
          simp only [Bool.and_eq_true, decide_eq_true_eq] at hi2
          have hne : r.1 ≠ off := by omega
          have hnr : reachedAt prevTo a.id off = false := by
            cases hh : reachedAt prevTo a.id off with
            | false => rfl
            | true => exact absurd (b12 hm (by simpa using hh)) hne
          have hnr' : a.id ≤ prevTo.a := by
            unfold reachedAt at hnr; simp at hnr; exact hnr.1
          rw [Key.le_def, h1]
          by_cases hq : a.id = prevTo.a
          · have := b11 hm (fun _ => by
              rw [← hoff]; split
              · rw [Key.le_def] at hwp; omega
              · omega) (Or.inl (by omega)) hq
            omega
          · omega
        have hmid : todo e.ours e.timeout ct was (a :: rest) = T ++ todo e.ours e.timeout ct r.2.cur (a :: rest) := by
          rw [todo_cons, todo_cons, hitems, hsplit, hitems', hshift, List.append_assoc]
        have hwhole : a.exts.length = r.1 → todo e.ours e.timeout ct r.2.cur (a :: rest) = todo e.ours e.timeout ct r.2.cur rest := by
          intro h
          rw [todo_cons, hitems', ← h, List.drop_length]; rfl
        have hto : r.2.to = s.to ∨ r.2.to = maxKey s.to r.2.cur := by
          rw [b9, b8]; split
          · exact Or.inl rfl
          · exact Or.inr rfl
        have htoEq : s.to = s.cur → r.2.to = r.2.cur := by
          intro h
          rw [b9, b8]; split
          · exact h
          · apply maxKey_eq_right
            simp only; rw [h]
            exact Key.le_trans hcurle (by rw [Key.le_def]; simp; omega)
        have hcurIn : r.2.cur = s.cur ∨ ∃ c ∈ a :: rest, r.2.cur.a = c.id ∧ r.2.cur.o ≤ c.exts.length := by
          rw [b8]; split
          · exact Or.inl rfl
          · exact Or.inr ⟨a, List.mem_cons_self, rfl, b4'⟩
        have hpass : a.exts.length = r.1 → Passed e.timeout ct r.2.cur a := by
          intro h
          have hnz : r.1 ≠ off := by
            intro h'
            have h1 : 0 < a.exts.length := List.length_pos_iff.2 (hne a List.mem_cons_self)
            rw [← hoff] at h'
            split at h'
            · have := hw a List.mem_cons_self ‹_›; omega
            · omega
          rw [b8, if_neg hnz]
          exact Or.inr ⟨rfl, Or.inl (by simp only; omega)⟩
        have hstopPopped : ∃ P, a :: rest = P ++ (if decide (a.exts.length = r.1) = true then rest else a :: rest) ∧
            ∀ c ∈ P, Passed e.timeout ct r.2.cur c := by
          split
          · rename_i h
            refine ⟨[a], rfl, ?_⟩
            intro c hc
            rw [List.mem_singleton.1 hc]; exact hpass (by simpa using h)
          · exact ⟨[], rfl, by simp⟩
        have hstopSplit : todo e.ours e.timeout ct was (a :: rest) =
            T ++ todo e.ours e.timeout ct r.2.cur (if decide (a.exts.length = r.1) = true then rest else a :: rest) := by
          rw [hmid]; split
          · rename_i h; rw [hwhole (by simpa using h)]
          · rfl
        have hstopOff : ∀ c ∈ (if decide (a.exts.length = r.1) = true then rest else a :: rest), c.id = r.2.cur.a →
            r.2.cur.o < c.exts.length := by
          intro c hc hid
          have key : c = a → ¬ a.exts.length = r.1 → r.2.cur.o < c.exts.length := by
            intro hca hne
            subst hca
            by_cases hro : r.1 = off
            · rw [b8, if_pos hro] at hid ⊢
              simp only at hid ⊢
              rcases hpos with h | h
              · rw [h] at hid ⊢
                rw [← hoff, if_pos hid] at hro
                omega
              · have := h c List.mem_cons_self; omega
            · rw [b8, if_neg hro]; simp only; omega
          split at hc
          · have := hrest c hc; omega
          · rename_i hne
            rcases List.mem_cons.1 hc with h | h
            · exact key h (by simpa using hne)
            · have := hrest c h; omega
        have hstopAhead : ∀ c ∈ (if decide (a.exts.length = r.1) = true then rest else a :: rest), r.2.cur.a ≤ c.id := by
          intro c hc
          split at hc
          · have := hrest c hc; omega
          · rcases List.mem_cons.1 hc with h | h
            · subst h; exact hcura
            · have := hrest c h; omega
        by_cases hreach : (decide (mode = .toPrev) && r.2.reached) = true
        · rw [if_pos hreach]
          simp only [Bool.and_eq_true, decide_eq_true_eq] at hreach
          refine ⟨T, ⟨b1, b2, b6, rfl, hstopPopped, hstopSplit, hcur', hbelow, by simp, ?_, hto, htoEq, hstopOff, hstopAhead,
            hprevBelow, hcurIn, ?_⟩⟩
          · intro h; rw [hreach.1] at h; cases h
          · intro _ _ i hi
            have hi' := List.mem_filter.1 hi
            obtain ⟨c, hc, hic⟩ := mem_stream.1 hi'.1
            obtain ⟨hk, _⟩ := items_key hic
            have hr := hreach.2
            rw [b7] at hr
            unfold reachedAt at hr
            simp only [Bool.or_eq_true, Bool.and_eq_true, decide_eq_true_eq] at hr
            have hck : c = a ∨ a.id < c.id := by
              split at hc
              · exact Or.inr (hrest c hc)
              · rcases List.mem_cons.1 hc with h | h
                · exact Or.inl h
                · exact Or.inr (hrest c h)
            rw [Key.lt_def, hk]
            rcases hck with h | h
            · subst h
              have h5 := hi'.2
              simp only [Bool.and_eq_true, decide_eq_true_eq] at h5
              have h6 := (hcurkey' i hic).1 h5.1.2
              omega
            · omega
        · rw [if_neg hreach]
          have hnr : mode = .toPrev → r.2.reached = false := by
            intro h; simpa [h] using hreach
          by_cases hfil : r.2.filled = true
          · rw [if_pos hfil]
            exact ⟨T, ⟨b1, b2, b6, rfl, hstopPopped, hstopSplit, hcur', hbelow, fun _ => hfil, by simp, hto, htoEq, hstopOff, hstopAhead,
              hprevBelow, hcurIn, by simp⟩⟩
          · rw [if_neg hfil]
            have hlen : a.exts.length = r.1 := by
              have := b10 (by simpa using hfil) hnr
              rw [List.length_drop] at this; omega
            rw [if_pos (by simpa using hlen)]
            obtain ⟨T', hT⟩ := ih r.2 hsort' hw' hne' b6 (Key.le_trans hle hcur') (Or.inr (fun c hc => by have := hrest c hc; omega))
            refine ⟨T ++ T', ⟨?_, ?_, hT.filled, hT.notStuck, ?_, ?_, Key.le_trans hcur' hT.le, ?_,
              hT.stopped, hT.atEnd, ?_, fun h => hT.toEq (htoEq h), hT.off, hT.ahead, ?_, ?_, hT.prevAll⟩⟩
            · rw [hT.put, b1, tagged_append, List.append_assoc]
            · rw [hT.buf, b2, addAll_append]
            · obtain ⟨P, h1, h2⟩ := hT.popped
              refine ⟨a :: P, congrArg (a :: ·) h1, ?_⟩
              intro c hc
              rcases List.mem_cons.1 hc with h | h
              · subst h; exact (hpass hlen).mono hT.le
              · exact h2 c h
            · rw [hmid, hwhole hlen, ← hshift, hT.split, List.append_assoc]
            · intro i hi
              rcases List.mem_append.1 hi with h | h
              · exact Key.le_trans (hbelow i h) hT.le
              · exact hT.below i h
            · rcases hT.to with h | h
              · rcases hto with h' | h'
                · left; rw [h, h']
                · by_cases hx : s.to ≤ r.2.cur
                  · right
                    have h3 := hT.toEq (by rw [h', maxKey_eq_right hx])
                    rw [h3]; symm; exact maxKey_eq_right (Key.le_trans hx hT.le)
                  · left; rw [h, h', maxKey_eq_left (Key.le_of_lt (Key.not_le.1 hx))]
              · right
                rw [h]
                rcases hto with h' | h'
                · rw [h']
                · rw [h']
                  by_cases hx : s.to ≤ r.2.cur
                  · rw [maxKey_eq_right hx, maxKey_eq_right hT.le, maxKey_eq_right (Key.le_trans hx hT.le)]
                  · rw [maxKey_eq_left (Key.le_of_lt (Key.not_le.1 hx))]
            · intro hm i hi
              rcases List.mem_append.1 hi with h | h
              · exact hprevBelow hm i h
              · exact hT.prevBelow hm i h
            · rcases hT.curIn with h | ⟨c, hc, h⟩
              · rw [h]; exact hcurIn
              · exact Or.inr ⟨c, List.mem_cons_of_mem _ hc, h⟩

end Tycho.ExtReader
