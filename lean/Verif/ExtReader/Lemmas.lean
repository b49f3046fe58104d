import Verif.ExtReader.Model
/-! What one call of `read_externals_into_buffers` puts into the buffers and what it leaves in the cache. -/
namespace Tycho.ExtReader
variable {B : Type}

theorem Key.lt_def (p q : Key) : p < q ↔ p.a < q.a ∨ (p.a = q.a ∧ p.o < q.o) := Iff.rfl
theorem Key.le_def (p q : Key) : p ≤ q ↔ p.a < q.a ∨ (p.a = q.a ∧ p.o ≤ q.o) := Iff.rfl
theorem Key.ext' {p q : Key} (h1 : p.a = q.a) (h2 : p.o = q.o) : p = q := by cases p; cases q; simp_all
theorem Key.le_refl (p : Key) : p ≤ p := by rw [Key.le_def]; omega
theorem Key.le_of_lt {p q : Key} (h : p < q) : p ≤ q := by rw [Key.le_def]; rw [Key.lt_def] at h; omega
theorem Key.le_trans {p q r : Key} (h : p ≤ q) (h' : q ≤ r) : p ≤ r := by rw [Key.le_def] at *; omega
theorem Key.lt_of_le_of_lt {p q r : Key} (h : p ≤ q) (h' : q < r) : p < r := by rw [Key.le_def] at h; rw [Key.lt_def] at *; omega
theorem Key.lt_of_lt_of_le {p q r : Key} (h : p < q) (h' : q ≤ r) : p < r := by rw [Key.le_def] at h'; rw [Key.lt_def] at *; omega
theorem Key.lt_irrefl (p : Key) : ¬ p < p := by rw [Key.lt_def]; omega
theorem Key.not_lt {p q : Key} : ¬ p < q ↔ q ≤ p := by rw [Key.lt_def, Key.le_def]; omega
theorem Key.not_le {p q : Key} : ¬ p ≤ q ↔ q < p := by rw [Key.lt_def, Key.le_def]; omega
theorem Key.le_antisymm {p q : Key} (h : p ≤ q) (h' : q ≤ p) : p = q := by
  rw [Key.le_def] at *; exact Key.ext' (by omega) (by omega)

theorem le_maxKey_left (p q : Key) : p ≤ maxKey p q := by
  unfold maxKey; split
  · exact Key.le_of_lt ‹_›
  · exact Key.le_refl _

theorem maxKey_eq_right {p q : Key} (h : p ≤ q) : maxKey p q = q := by
  unfold maxKey; split
  · rfl
  · exact Key.le_antisymm h (Key.not_lt.1 ‹_›)

theorem maxKey_eq_left {p q : Key} (h : q ≤ p) : maxKey p q = p := by
  unfold maxKey; rw [if_neg (Key.not_lt.2 h)]

/-- The messages of an anchor from an offset, with their keys. -/
def itemsFrom (aid act : Nat) : List Ext → Nat → List Item
  | [], _ => []
  | m :: ms, off => ⟨⟨aid, off + 1⟩, m, act⟩ :: itemsFrom aid act ms (off + 1)

theorem itemsFrom_key {aid act : Nat} : ∀ {ms : List Ext} {off : Nat} {i : Item}, i ∈ itemsFrom aid act ms off →
    i.key.a = aid ∧ off < i.key.o ∧ i.key.o ≤ off + ms.length ∧ i.ct = act
  | [], _, _, h => by cases h
  | m :: ms, off, i, h => by
    rcases List.mem_cons.1 h with rfl | h
    · simp
    · obtain ⟨h1, h2, h3, h4⟩ := itemsFrom_key h
      exact ⟨h1, by omega, by rw [List.length_cons]; omega, h4⟩

theorem itemsFrom_append {aid act : Nat} : ∀ (l l' : List Ext) (off : Nat),
    itemsFrom aid act (l ++ l') off = itemsFrom aid act l off ++ itemsFrom aid act l' (off + l.length)
  | [], l', off => by simp [itemsFrom]
  | m :: l, l', off => by
    simp only [List.cons_append, itemsFrom, List.length_cons]
    rw [itemsFrom_append l l' (off + 1), show off + 1 + l.length = off + (l.length + 1) by omega]

/-- Messages behind an offset. -/
theorem itemsFrom_drop {aid act : Nat} (ms : List Ext) (k : Nat) (hk : k ≤ ms.length) (p : Item → Bool) :
    (itemsFrom aid act ms 0).filter (fun i => p i && decide (k < i.key.o)) = (itemsFrom aid act (ms.drop k) k).filter p := by
  have h := itemsFrom_append (aid := aid) (act := act) (ms.take k) (ms.drop k) 0
  rw [List.take_append_drop, List.length_take, Nat.min_eq_left hk, Nat.zero_add] at h
  rw [h, List.filter_append]
  have h1 : (itemsFrom aid act (ms.take k) 0).filter (fun i => p i && decide (k < i.key.o)) = [] := by
    rw [List.filter_eq_nil_iff]
    intro i hi hc
    obtain ⟨_, _, h3, _⟩ := itemsFrom_key hi
    simp at hc
    rw [List.length_take] at h3
    omega
  rw [h1, List.nil_append]
  apply List.filter_congr
  intro i hi
  obtain ⟨_, h2, _, _⟩ := itemsFrom_key hi
  simp [h2]

/-- All messages of an anchor. -/
def Anchor.items (a : Anchor) : List Item := itemsFrom a.id a.ct a.exts 0

/-- All messages of anchors, in order. -/
def stream (l : List Anchor) : List Item := l.flatMap Anchor.items

theorem stream_cons (a : Anchor) (l : List Anchor) : stream (a :: l) = a.items ++ stream l := by simp [stream]
theorem stream_append (l l' : List Anchor) : stream (l ++ l') = stream l ++ stream l' := by simp [stream]

/-- Ids strictly ascend. -/
def Sorted (l : List Anchor) : Prop := l.Pairwise (fun a b => a.id < b.id)

/-- Messages of the shard behind a position that are not expired at a chain time. -/
def todo (ours : Nat → Bool) (timeout ct : Nat) (p : Key) (l : List Anchor) : List Item :=
  (stream l).filter (fun i => ours i.msg.dst && decide (p < i.key) && !expiredAt timeout ct i.ct)

/-- The partition of a message with the message. -/
def tagged (e : Env B) (l : List Item) : List (Nat × Item) := l.map (fun i => (e.router i.msg.dst, i))

theorem tagged_append (e : Env B) (l l' : List Item) : tagged e (l ++ l') = tagged e l ++ tagged e l' := by simp [tagged]

theorem tagged_snd (e : Env B) (l : List Item) : (tagged e l).map (·.2) = l := by simp [tagged, Function.comp_def]

/-- The buffers after adding messages. -/
def addAll (e : Env B) (b : B) (l : List Item) : B := l.foldl (fun b i => e.ops.add b (e.router i.msg.dst) i) b

theorem addAll_append (e : Env B) (b : B) (l l' : List Item) : addAll e b (l ++ l') = addAll e (addAll e b l) l' := by
  simp [addAll]

theorem import_spec (e : Env B) (mode : RMode) (procTo : Nat → Key) (prevTo : Key) (aid act : Nat) :
    ∀ (ms : List Ext) (off : Nat) (s : Rd B), s.filled = e.ops.full s.buf → s.reached = reachedAt prevTo aid off →
      (∀ par k, off < k → procTo par < ⟨aid, k⟩) →
      let r := importMsgs e mode procTo prevTo aid act ms off s
      ∃ T, r.2.put = s.put ++ tagged e T ∧ r.2.buf = addAll e s.buf T ∧ off ≤ r.1 ∧ r.1 ≤ off + ms.length ∧
        T = (itemsFrom aid act ms off).filter (fun i => e.ours i.msg.dst && decide (i.key.o ≤ r.1)) ∧
        r.2.filled = e.ops.full r.2.buf ∧ r.2.reached = reachedAt prevTo aid r.1 ∧
        r.2.cur = (if r.1 = off then s.cur else ⟨aid, r.1⟩) ∧
        r.2.to = (if r.1 = off then s.to else maxKey s.to ⟨aid, r.1⟩) ∧
        (r.2.filled = false → (mode = .toPrev → r.2.reached = false) → r.1 = off + ms.length) ∧
        (mode = .toPrev → (aid = prevTo.a → off ≤ prevTo.o) → (aid ≤ prevTo.a ∨ s.reached = true) →
          aid = prevTo.a → r.1 ≤ prevTo.o) ∧
        (mode = .toPrev → s.reached = true → r.1 = off) := by
  intro ms
  induction ms with
  | nil =>
    intro off s hf hr hp
    refine ⟨[], ?_⟩
    simp only [importMsgs]
    exact ⟨by simp [tagged], rfl, Nat.le_refl _, by simp, by simp [itemsFrom], hf, hr, by simp, by simp, by simp,
      fun _ h _ ha => h ha, by simp⟩
  | cons m ms ih =>
    intro off s hf hr hp
    by_cases hstop : (s.filled || (decide (mode = .toPrev) && s.reached)) = true
    · -- nothing more is added
      have key : ∀ (l : List Ext), (importMsgs e mode procTo prevTo aid act l off s) = (off, s) := by
        intro l
        induction l with
        | nil => rfl
        | cons x xs ihx =>
          unfold importMsgs
          rw [if_pos hstop]
          split
          · rfl
          · exact ihx
      rw [key]
      refine ⟨[], by simp [tagged], rfl, Nat.le_refl _, by omega, ?_, hf, hr, by simp, by simp, ?_, fun _ h _ ha => h ha, by simp⟩
      · symm; rw [List.filter_eq_nil_iff]
        intro i hi hc
        obtain ⟨_, h2, _, _⟩ := itemsFrom_key hi
        simp at hc; omega
      · intro h1 h2
        simp only [Bool.or_eq_true, Bool.and_eq_true, decide_eq_true_eq] at hstop
        rcases hstop with h | ⟨h, h'⟩
        · simp only at h1; rw [h] at h1; cases h1
        · rw [h2 h] at h'; cases h'
    · unfold importMsgs
      rw [if_neg hstop]
      simp only [Bool.not_eq_true] at hstop
      simp only [Bool.or_eq_false_iff, Bool.and_eq_false_iff, decide_eq_false_iff_not] at hstop
      have hpk : procTo (e.router m.dst) < ⟨aid, off + 1⟩ := hp _ _ (by omega)
      -- the state after this message
      generalize hs2 : takeMsg e procTo prevTo ⟨aid, off + 1⟩ act m s = s2
      have h2 : s2.put = s.put ++ tagged e (if e.ours m.dst then [⟨⟨aid, off + 1⟩, m, act⟩] else []) ∧
          s2.buf = addAll e s.buf (if e.ours m.dst then [⟨⟨aid, off + 1⟩, m, act⟩] else []) ∧
          s2.filled = e.ops.full s2.buf ∧ s2.reached = reachedAt prevTo aid (off + 1) ∧ s2.cur = ⟨aid, off + 1⟩ ∧
          s2.to = maxKey s.to ⟨aid, off + 1⟩ := by
        rw [← hs2]
        by_cases ho : e.ours m.dst = true
        · simp [takeMsg, ho, hpk, tagged, addAll]
        · simp [takeMsg, ho, tagged, addAll, hf]
      obtain ⟨a1, a2, a3, a4, a5, a6⟩ := h2
      obtain ⟨T, b1, b2, b3, b4, b5, b6, b7, b8, b9, b10, b11, b12⟩ := ih (off + 1) s2 a3 a4 (fun par k hk => hp par k (by omega))
      generalize importMsgs e mode procTo prevTo aid act ms (off + 1) s2 = r at b1 b2 b3 b4 b5 b6 b7 b8 b9 b10 b11 b12 ⊢
      refine ⟨(if e.ours m.dst then [⟨⟨aid, off + 1⟩, m, act⟩] else []) ++ T, ?_, ?_, by omega, ?_, ?_, b6, b7, ?_, ?_, ?_, ?_, ?_⟩
      · rw [b1, a1, tagged_append, List.append_assoc]
      · rw [b2, a2, addAll_append]
      · rw [List.length_cons]; omega
      · rw [itemsFrom, List.filter_cons, b5]
        by_cases ho : e.ours m.dst = true
        · simp [ho, show off + 1 ≤ r.1 from b3]
        · simp [ho]
      · rw [b8, if_neg (by omega : ¬ r.1 = off)]
        split
        · rename_i h; rw [a5, h]
        · rfl
      · rw [b9, if_neg (by omega : ¬ r.1 = off), a6]
        split
        · rename_i h; rw [h]
        · rename_i h
          have hle : (⟨aid, off + 1⟩ : Key) ≤ ⟨aid, r.1⟩ := by rw [Key.le_def]; simp; omega
          unfold maxKey
          by_cases hx : s.to < (⟨aid, off + 1⟩ : Key)
          · rw [if_pos hx, if_pos (Key.lt_of_lt_of_le hx hle), if_pos (by rw [Key.lt_def]; simp; omega)]
          · rw [if_neg hx]
      · intro h1 h2
        rw [List.length_cons, b10 h1 h2]; omega
      · intro hm h1 h2 ha
        have hrs : s.reached = false := hstop.2.resolve_left (fun h => h hm)
        rw [hr] at hrs
        have : off < prevTo.o := by
          unfold reachedAt at hrs
          simp at hrs
          have := h1 ha
          have := hrs.2 ha
          omega
        exact b11 hm (fun _ => by omega) (Or.inl (by omega)) ha
      · intro hm h1
        rw [hstop.2.resolve_left (fun h => h hm)] at h1; cases h1

end Tycho.ExtReader
