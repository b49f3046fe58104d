import Verif.SplitMerge.Spec
/-!
The loop.
-/
namespace Tycho.SplitMerge

theorem anc_iff (a b : Shard) : a.isAncestorOf b = true ↔ a.lt b := by
  unfold Shard.isAncestorOf Shard.lt Shard.le
  simp only [Bool.and_eq_true, decide_eq_true_eq, List.isPrefixOf_iff_prefix, Bool.not_eq_true', decide_eq_false_iff_not]
  constructor
  · rintro ⟨⟨h1, h2⟩, h3⟩
    exact ⟨⟨h1, h2⟩, fun e => h3 (by rw [e])⟩
  · rintro ⟨⟨h1, h2⟩, h3⟩
    refine ⟨⟨h1, h2⟩, fun e => h3 ?_⟩
    cases a; cases b; simp_all

theorem le_refl (a : Shard) : a.le a := ⟨rfl, List.prefix_refl _⟩

theorem le_trans {a b c : Shard} (h : a.le b) (h2 : b.le c) : a.le c := ⟨h.1.trans h2.1, h.2.trans h2.2⟩

theorem le_antisymm {a b : Shard} (h : a.le b) (h2 : b.le a) : a = b := by
  have := h.2.eq_of_length_le h2.2.length_le
  obtain ⟨w, p⟩ := a; obtain ⟨w', p'⟩ := b
  have hw := h.1
  simp_all

theorem le_total_below {a b c : Shard} (h : a.le c) (h2 : b.le c) : a.le b ∨ b.le a := by
  rcases List.prefix_or_prefix_of_prefix h.2 h2.2 with h3 | h3
  · exact Or.inl ⟨h.1.trans h2.1.symm, h3⟩
  · exact Or.inr ⟨h2.1.trans h.1.symm, h3⟩

/-- The child. -/
def child (p : Shard) (b : Bool) : Shard := ⟨p.wc, p.path ++ [b]⟩

theorem le_child (p : Shard) (b : Bool) : p.le (child p b) := ⟨rfl, List.prefix_append _ _⟩

theorem lt_child (p : Shard) (b : Bool) : p.lt (child p b) := by
  refine ⟨le_child p b, ?_⟩
  intro e
  have := congrArg (fun s => s.path.length) e
  simp [child] at this

theorem child_of_lt {p t : Shard} (h : p.lt t) : ∃ b, (child p b).le t := by
  obtain ⟨⟨h1, r, h2⟩, h3⟩ := h
  cases r with
  | nil =>
    exfalso
    apply h3
    obtain ⟨w, p⟩ := p; obtain ⟨w', p'⟩ := t
    simp_all
  | cons b r => exact ⟨b, h1, r, by simp [child, h2]⟩

theorem children_apart (p : Shard) (b c : Bool) (h : (child p b).le (child p c)) : b = c := by
  have := h.2.eq_of_length (by simp [child])
  simpa [child] using this

/-- Below. -/
def below (s : Shard) (l : List Shard) : List Shard := l.filter (fun t => s.isAncestorOf t)
def unrel (s : Shard) (l : List Shard) : List Shard := l.filter (fun t => !decide (s = t) && !s.isAncestorOf t && !t.isAncestorOf s)
def same (s : Shard) (l : List Shard) : List Shard := l.filter (fun t => decide (s = t))

theorem pushOpt_eq (out : List Action) (act : Option Action) : pushOpt out act = out ++ act.toList := by
  cases act <;> simp [pushOpt]

theorem scan_eq (s : Shard) (act : Option Action) : ∀ (l : List Shard) (out : List Action) (ch rest : List Shard),
    scan s act l out ch rest = (out ++ (same s l).flatMap (fun _ => act.toList), ch ++ below s l, rest ++ unrel s l) := by
  intro l
  induction l with
  | nil => intro out ch rest; simp [scan, same, below, unrel]
  | cons t l ih =>
    intro out ch rest
    unfold scan
    by_cases h1 : s = t
    · have hn : t.isAncestorOf t = false := by
        rw [Bool.eq_false_iff]; intro h; exact ((anc_iff _ _).1 h).2 rfl
      subst h1
      rw [if_pos rfl, ih]
      simp [same, below, unrel, hn, pushOpt_eq]
    · rw [if_neg h1]
      by_cases h2 : s.isAncestorOf t = true
      · rw [if_pos h2, ih]; simp [same, below, unrel, h1, h2]
      · rw [if_neg h2]
        by_cases h3 : t.isAncestorOf s = true
        · rw [if_pos h3, ih]; simp [same, below, unrel, h1, h2, h3]
        · rw [if_neg h3, ih]; simp [same, below, unrel, h1, h2, h3]

theorem mem_below (s : Shard) (l : List Shard) (t : Shard) : t ∈ below s l ↔ t ∈ l ∧ s.lt t := by
  unfold below; rw [List.mem_filter, anc_iff]

theorem mem_unrel (s : Shard) (l : List Shard) (t : Shard) : t ∈ unrel s l ↔ t ∈ l ∧ ¬ s.le t ∧ ¬ t.le s := by
  unfold unrel
  rw [List.mem_filter]
  simp only [Bool.and_eq_true, Bool.not_eq_true', Bool.eq_false_iff, ne_eq, anc_iff, Shard.lt, decide_eq_true_eq]
  constructor
  · rintro ⟨h, ⟨h1, h2⟩, h3⟩
    exact ⟨h, fun hl => h2 ⟨hl, h1⟩, fun hl => h3 ⟨hl, fun e => h1 e.symm⟩⟩
  · rintro ⟨h, h1, h2⟩
    exact ⟨h, ⟨fun e => h1 (e ▸ le_refl s), fun hl => h1 hl.1⟩, fun hl => h2 hl.1⟩

theorem filter_unrel (s : Shard) (l : List Shard) (f : Shard → Bool) (h : ∀ t ∈ l, f t = true → ¬ s.le t ∧ ¬ t.le s) :
    (unrel s l).filter f = l.filter f := by
  unfold unrel
  rw [List.filter_filter]
  apply List.filter_congr
  intro t ht
  by_cases hf : f t = true
  · have := h t ht hf
    rw [hf, Bool.true_and]
    have hm := (mem_unrel s [t] t).2 ⟨by simp, this⟩
    unfold unrel at hm
    rw [List.mem_filter] at hm
    exact hm.2
  · rw [Bool.not_eq_true] at hf; rw [hf]; rfl

/-- The loop from here, seen in items: a shard to split with the wanted shards below it, before (`false`) or after (`true`) its split. -/
abbrev Item := Shard × List Shard × Bool

def expand : Item → List Step
  | (p, ch, false) => [.act ch (.split p)]
  | (p, ch, true) => [.check (child p false) (some ch) (some (.split p)), .check (child p true) none (some (.split p))]

def Good (i : Item) : Prop := i.2.1 ≠ [] ∧ ∀ t ∈ i.2.1, i.1.lt t ∧ t.path.length ≤ 60

def weight (p : Shard) (ch : List Shard) : Nat := (ch.map (fun t => t.path.length - p.path.length)).sum

def meas (i : Item) : Nat := 2 * weight i.1 i.2.1 - (if i.2.2 then 1 else 0)

/-- Each shard one or more times in a row. -/
inductive Copies : List Shard → List Action → Prop
  | nil : Copies [] []
  | cons (p : Shard) (k : Nat) (D : List Shard) (E : List Action) : Copies D E → Copies (p :: D) (List.replicate (k + 1) (.split p) ++ E)

theorem lt_length {p t : Shard} (h : p.lt t) : p.path.length < t.path.length := by
  obtain ⟨⟨h1, h2⟩, h3⟩ := h
  have := h2.length_le
  rcases Nat.lt_or_ge p.path.length t.path.length with hl | hl
  · exact hl
  · exfalso
    apply h3
    have := h2.eq_of_length_le hl
    obtain ⟨w, p⟩ := p; obtain ⟨w', p'⟩ := t
    simp_all

theorem weight_children (p : Shard) : ∀ ch : List Shard, (∀ t ∈ ch, p.lt t) →
    weight (child p false) (below (child p false) ch) + weight (child p true) (below (child p true) ch) + ch.length ≤ weight p ch := by
  intro ch
  induction ch with
  | nil => intro _; simp [weight, below]
  | cons t ch ih =>
    intro h
    have hlt := lt_length (h t (by simp))
    have := ih (fun t ht => h t (by simp [ht]))
    have hb : ∀ b, weight (child p b) (below (child p b) (t :: ch)) = (if (child p b).isAncestorOf t then t.path.length - (p.path.length + 1) else 0) +
        weight (child p b) (below (child p b) ch) := by
      intro b
      unfold below weight
      rw [List.filter_cons]
      split
      · simp [child]
      · simp
    rw [hb, hb]
    have hw : weight p (t :: ch) = (t.path.length - p.path.length) + weight p ch := by simp [weight]
    rw [hw, List.length_cons]
    by_cases h1 : (child p false).isAncestorOf t = true
    · have h2 : (child p true).isAncestorOf t = false := by
        rw [Bool.eq_false_iff]
        intro h2
        rcases le_total_below ((anc_iff _ _).1 h1).1 ((anc_iff _ _).1 h2).1 with h | h
        · cases children_apart p _ _ h
        · cases children_apart p _ _ h
      rw [h1, h2]; simp only [if_true, Bool.false_eq_true, if_false]; omega
    · rw [if_neg h1]
      split <;> omega

/-- The items after the two checks. -/
def after (p : Shard) (ch : List Shard) (b : Bool) : List Item :=
  if (below (child p b) ch).isEmpty then [] else [(child p b, below (child p b) ch, false)]

theorem check_turn (q : List Step) (rest : List Shard) (out : List Action) (s : Shard) (sub : Option (List Shard)) (a : Option Action)
    (ch : List Shard) (h : (match sub with | some l => l | none => rest) = ch) :
    turn q rest out (.check s sub a) = some ⟨q ++ (if (below s ch).isEmpty then [] else [.act (below s ch) (.split s)]), unrel s ch,
      out ++ (same s ch).flatMap (fun _ => a.toList) ++ (if (below s ch).isEmpty then [] else a.toList)⟩ := by
  have key : turn q rest out (.check s sub a) = turn q ch out (.check s none a) := by
    cases sub <;> subst h <;> rfl
  rw [key]
  simp only [turn, scan_eq, List.nil_append]
  by_cases he : (below s ch).isEmpty = true
  · rw [if_pos he, if_pos he, if_pos he]
    simp
  · rw [if_neg he, if_neg he, if_neg he]
    rw [pushOpt_eq]

theorem expand_after (p : Shard) (ch : List Shard) (b : Bool) :
    (after p ch b).flatMap expand = if (below (child p b) ch).isEmpty then [] else [.act (below (child p b) ch) (.split (child p b))] := by
  unfold after
  split <;> simp [expand]

theorem meas_after (p : Shard) (ch : List Shard) (b : Bool) : ((after p ch b).map meas).sum = 2 * weight (child p b) (below (child p b) ch) := by
  unfold after
  split
  · rename_i h
    rw [List.isEmpty_iff] at h
    simp [h, weight]
  · simp [meas]

theorem good_after (p : Shard) (ch : List Shard) (b : Bool) (h : ∀ t ∈ ch, p.lt t ∧ t.path.length ≤ 60) : ∀ i ∈ after p ch b, Good i := by
  intro i hi
  unfold after at hi
  split at hi
  · simp at hi
  · rename_i he
    simp only [List.mem_singleton] at hi
    subst hi
    refine ⟨by simpa using he, ?_⟩
    intro t ht
    have := (mem_below _ _ _).1 ht
    exact ⟨this.2, (h t this.1).2⟩

theorem runs_items : ∀ (n : Nat) (Q : List Item), (Q.map meas).sum ≤ n → (∀ i ∈ Q, Good i) → ∀ (rest : List Shard) (out : List Action),
    ∃ D E, Runs ⟨Q.flatMap expand, rest, out⟩ (some (out ++ E)) ∧ Copies D E ∧
      (∀ p, p ∈ D ↔ ∃ i ∈ Q, ∃ t ∈ i.2.1, i.1.le p ∧ p.lt t) ∧
      (Apart (Q.map (·.1)) → D.Pairwise (fun a b => ¬ b.le a)) := by
  intro n
  induction n with
  | zero =>
    intro Q hm hg rest out
    cases Q with
    | nil => exact ⟨[], [], by simpa using Runs.done rest out, .nil, by simp, by simp⟩
    | cons i Q =>
      exfalso
      have hgi := hg i (by simp)
      have hw : 1 ≤ weight i.1 i.2.1 := by
        cases hc : i.2.1 with
        | nil => exact absurd hc hgi.1
        | cons t l =>
          have := lt_length (hgi.2 t (by simp [hc])).1
          simp [weight]; omega
      simp only [List.map_cons, List.sum_cons] at hm
      unfold meas at hm
      split at hm <;> omega
  | succ n ih =>
    intro Q hm hg rest out
    cases Q with
    | nil => exact ⟨[], [], by simpa using Runs.done rest out, .nil, by simp, by simp⟩
    | cons i Q =>
      obtain ⟨p, ch, b⟩ := i
      have hgi := hg (p, ch, b) (by simp)
      obtain ⟨hne, hch⟩ := hgi
      simp only at hne hch
      simp only [List.map_cons, List.sum_cons] at hm
      have hwc : ch.length ≤ weight p ch := by
        have := weight_children p ch (fun t ht => (hch t ht).1)
        omega
      have hpos : 0 < ch.length := List.length_pos_iff.2 hne
      have hgQ : ∀ i ∈ Q, Good i := fun i hi => hg i (by simp [hi])
      cases b with
      | false =>
        have hlen : p.path.length < 60 := by
          obtain ⟨t, ht⟩ := List.exists_mem_of_ne_nil ch hne
          have := lt_length (hch t ht).1
          have := (hch t ht).2
          omega
        obtain ⟨D, E, h1, h2, h3, h4⟩ := ih (Q ++ [(p, ch, true)]) (by
            simp only [meas, List.map_append, List.map_cons, List.map_nil, List.sum_append, List.sum_cons, List.sum_nil, if_true, Bool.false_eq_true, if_false] at hm ⊢
            omega) (by
            intro i hi
            rcases List.mem_append.1 hi with hi | hi
            · exact hgQ i hi
            · rw [List.mem_singleton] at hi; subst hi; exact ⟨hne, hch⟩) rest out
        refine ⟨D, E, ?_, h2, ?_, ?_⟩
        · rw [List.flatMap_cons]
          refine Runs.next _ _ _ _ ⟨(Q ++ [(p, ch, true)]).flatMap expand, rest, out⟩ _ ?_ h1
          simp only [turn, Shard.split]
          rw [if_pos hlen]
          simp [expand, child]
        · intro x
          rw [h3]
          constructor
          · rintro ⟨i, hi, h⟩
            rcases List.mem_append.1 hi with hi | hi
            · exact ⟨i, by simp [hi], h⟩
            · rw [List.mem_singleton] at hi; subst hi
              exact ⟨(p, ch, false), by simp, h⟩
          · rintro ⟨i, hi, h⟩
            rcases List.mem_cons.1 hi with rfl | hi
            · exact ⟨(p, ch, true), by simp, h⟩
            · exact ⟨i, by simp [hi], h⟩
        · intro ha
          apply h4
          unfold Apart at ha ⊢
          rw [List.map_cons, List.pairwise_cons] at ha
          rw [List.map_append, List.pairwise_append]
          refine ⟨ha.2, by simp, ?_⟩
          intro a ha1 c hc
          simp only [List.map_cons, List.map_nil, List.mem_singleton] at hc
          subst hc
          have := ha.1 a ha1
          exact ⟨this.2, this.1⟩
      | true =>
        obtain ⟨D, E, h1, h2, h3, h4⟩ := ih (Q ++ (after p ch false ++ after p ch true)) (by
            have := weight_children p ch (fun t ht => (hch t ht).1)
            rw [List.map_append, List.map_append, List.sum_append, List.sum_append, meas_after, meas_after]
            simp only [meas, if_true] at hm
            omega) (by
            intro i hi
            rcases List.mem_append.1 hi with hi | hi
            · exact hgQ i hi
            · rcases List.mem_append.1 hi with hi | hi
              · exact good_after p ch _ hch i hi
              · exact good_after p ch _ hch i hi) (unrel (child p true) (unrel (child p false) ch))
              (out ++ (same (child p false) ch).flatMap (fun _ => [Action.split p]) ++ (if (below (child p false) ch).isEmpty then [] else [Action.split p])
                ++ (same (child p true) ch).flatMap (fun _ => [Action.split p]) ++ (if (below (child p true) ch).isEmpty then [] else [Action.split p]))
        have hunrel : ∀ t, (child p true).le t → ¬ (child p false).le t ∧ ¬ t.le (child p false) := by
          intro t ht
          refine ⟨fun h => ?_, fun h => ?_⟩
          · rcases le_total_below ht h with h | h
            · cases children_apart p _ _ h
            · cases children_apart p _ _ h
          · cases children_apart p _ _ (le_trans ht h)
        have hb : below (child p true) (unrel (child p false) ch) = below (child p true) ch := by
          unfold below
          refine filter_unrel _ _ _ ?_
          intro t _ ht
          exact hunrel t ((anc_iff _ _).1 ht).1
        have hsm : same (child p true) (unrel (child p false) ch) = same (child p true) ch := by
          unfold same
          refine filter_unrel _ _ _ ?_
          intro t _ ht
          have : child p true = t := by simpa using ht
          exact hunrel t (this ▸ le_refl _)
        have hk : ∃ k, (same (child p false) ch).flatMap (fun _ => [Action.split p]) ++ (if (below (child p false) ch).isEmpty then [] else [Action.split p])
                ++ (same (child p true) ch).flatMap (fun _ => [Action.split p]) ++ (if (below (child p true) ch).isEmpty then [] else [Action.split p])
                = List.replicate (k + 1) (Action.split p) := by
          have hrep : ∀ l : List Shard, l.flatMap (fun _ => [Action.split p]) = List.replicate l.length (Action.split p) := by
            intro l; induction l with
            | nil => rfl
            | cons a l ih => simp [ih, List.replicate_succ]
          have hrep2 : ∀ b : Bool, (if b then [] else [Action.split p]) = List.replicate (if b then 0 else 1) (Action.split p) := by
            intro b; cases b <;> rfl
          rw [hrep, hrep, hrep2, hrep2, List.replicate_append_replicate, List.replicate_append_replicate, List.replicate_append_replicate]
          have : 0 < (same (child p false) ch).length + (if (below (child p false) ch).isEmpty then 0 else 1) + (same (child p true) ch).length +
              (if (below (child p true) ch).isEmpty then 0 else 1) := by
            obtain ⟨t, ht⟩ := List.exists_mem_of_ne_nil ch hne
            obtain ⟨b, hbt⟩ := child_of_lt (hch t ht).1
            have hor : 0 < (same (child p b) ch).length ∨ (below (child p b) ch).isEmpty = false := by
              by_cases he : child p b = t
              · left
                apply List.length_pos_of_mem (a := t)
                unfold same
                rw [List.mem_filter]
                exact ⟨ht, by simpa using he⟩
              · right
                rw [List.isEmpty_eq_false_iff]
                intro h
                have := (mem_below (child p b) ch t).2 ⟨ht, hbt, he⟩
                rw [h] at this; simp at this
            cases b with
            | false =>
              rcases hor with h | h
              · omega
              · rw [h]; simp only [Bool.false_eq_true, if_false]; omega
            | true =>
              rcases hor with h | h
              · omega
              · rw [h]; simp only [Bool.false_eq_true, if_false]; omega
          obtain ⟨k, hk⟩ := Nat.exists_eq_succ_of_ne_zero (Nat.pos_iff_ne_zero.1 this)
          exact ⟨k, by rw [hk]⟩
        obtain ⟨k, hk⟩ := hk
        refine ⟨p :: D, List.replicate (k + 1) (.split p) ++ E, ?_, .cons p k D E h2, ?_, ?_⟩
        · rw [List.flatMap_cons]
          show Runs ⟨.check (child p false) (some ch) (some (.split p)) :: .check (child p true) none (some (.split p)) :: Q.flatMap expand, rest, out⟩ _
          refine Runs.next _ _ _ _ _ _ (check_turn _ _ _ _ _ _ ch rfl) ?_
          rw [List.cons_append]
          refine Runs.next _ _ _ _ _ _ (check_turn _ _ _ _ _ _ (unrel (child p false) ch) rfl) ?_
          rw [hb, hsm]
          rw [List.flatMap_append, List.flatMap_append, expand_after, expand_after] at h1
          rw [← hk]
          simp only [Option.toList_some, List.append_assoc] at h1 ⊢
          exact h1
        · intro x
          rw [List.mem_cons, h3]
          constructor
          · rintro (rfl | ⟨i, hi, t, ht, h5, h6⟩)
            · obtain ⟨t, ht⟩ := List.exists_mem_of_ne_nil ch hne
              exact ⟨(x, ch, true), by simp, t, ht, le_refl _, (hch t ht).1⟩
            · rcases List.mem_append.1 hi with hi | hi
              · exact ⟨i, by simp [hi], t, ht, h5, h6⟩
              · have : ∃ b, i = (child p b, below (child p b) ch, false) := by
                  unfold after at hi
                  rcases List.mem_append.1 hi with hi | hi
                  · split at hi
                    · simp at hi
                    · exact ⟨false, by simpa using hi⟩
                  · split at hi
                    · simp at hi
                    · exact ⟨true, by simpa using hi⟩
                obtain ⟨b, rfl⟩ := this
                have := (mem_below _ _ _).1 ht
                exact ⟨(p, ch, true), by simp, t, this.1, le_trans (le_child p b) h5, h6⟩
          · rintro ⟨i, hi, t, ht, h5, h6⟩
            rcases List.mem_cons.1 hi with rfl | hi
            · by_cases he : x = p
              · exact Or.inl he
              · right
                simp only at ht h5
                obtain ⟨b, hb⟩ := child_of_lt ⟨h5, fun e => he e.symm⟩
                have hlt : (child p b).lt t := by
                  refine ⟨le_trans hb h6.1, fun e => ?_⟩
                  exact h6.2 (le_antisymm h6.1 (e ▸ hb))
                have hm2 := (mem_below (child p b) ch t).2 ⟨ht, hlt⟩
                have hin : (child p b, below (child p b) ch, false) ∈ after p ch b := by
                  unfold after
                  rw [if_neg]
                  · simp
                  · intro h
                    rw [List.isEmpty_iff] at h
                    rw [h] at hm2; simp at hm2
                refine ⟨(child p b, below (child p b) ch, false), ?_, t, hm2, hb, h6⟩
                cases b
                · simp [hin]
                · simp [hin]
            · exact Or.inr ⟨i, by simp [hi], t, ht, h5, h6⟩
        · intro ha
          unfold Apart at ha
          rw [List.map_cons, List.pairwise_cons] at ha
          have hafter : ∀ b, ∀ i ∈ after p ch b, i.1 = child p b := by
            intro b i hi
            unfold after at hi
            split at hi
            · simp at hi
            · rw [List.mem_singleton] at hi; rw [hi]
          have hone : ∀ b, Apart ((after p ch b).map (·.1)) := by
            intro b
            unfold after
            split <;> simp [Apart]
          rw [List.pairwise_cons]
          refine ⟨?_, h4 ?_⟩
          · intro x hx hle
            obtain ⟨i, hi, t, ht, h5, h6⟩ := (h3 x).1 hx
            rcases List.mem_append.1 hi with hi | hi
            · exact (ha.1 i.1 (List.mem_map_of_mem hi)).2 (le_trans h5 hle)
            · have : ∃ b, i.1 = child p b := by
                rcases List.mem_append.1 hi with hi | hi
                · exact ⟨_, hafter _ i hi⟩
                · exact ⟨_, hafter _ i hi⟩
              obtain ⟨b, hb⟩ := this
              rw [hb] at h5
              have := le_antisymm (le_child p b) (le_trans h5 hle)
              exact (lt_child p b).2 this
          · unfold Apart
            rw [List.map_append, List.pairwise_append]
            refine ⟨ha.2, ?_, ?_⟩
            · rw [List.map_append, List.pairwise_append]
              refine ⟨hone _, hone _, ?_⟩
              intro a ha c hc
              obtain ⟨i, hi, rfl⟩ := List.mem_map.1 ha
              obtain ⟨j, hj, rfl⟩ := List.mem_map.1 hc
              rw [hafter _ i hi, hafter _ j hj]
              exact ⟨fun h => (by cases children_apart p _ _ h), fun h => (by cases children_apart p _ _ h)⟩
            · intro a ha1 c hc
              obtain ⟨j, hj, rfl⟩ := List.mem_map.1 hc
              have hjc : ∃ b, j.1 = child p b := by
                rcases List.mem_append.1 hj with hj | hj
                · exact ⟨_, hafter _ j hj⟩
                · exact ⟨_, hafter _ j hj⟩
              obtain ⟨b, hb⟩ := hjc
              rw [hb]
              have := ha.1 a ha1
              refine ⟨fun h => ?_, fun h => this.1 (le_trans (le_child p b) h)⟩
              rcases le_total_below h (le_child p b) with h' | h'
              · exact this.2 h'
              · exact this.1 h'

end Tycho.SplitMerge
