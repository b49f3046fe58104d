import Verif.IntrusiveList.Spec
import Mathlib.Data.List.Nodup

namespace Tycho.IntrusiveList

/-- `xs` are linked one after another, from `pr` to `nx`. -/
def Seg (h : Heap) (pr : Option Ptr) : List Ptr → Option Ptr → Prop
  | [], _ => True
  | x :: xs, nx => (h x).prev = pr ∧ (h x).next = xs.head?.or nx ∧ Seg h (some x) xs nx

/-- The list `l` is `xs`. -/
structure Rep (h : Heap) (l : LList) (xs : List Ptr) : Prop where
  head : l.head = xs.head?
  tail : l.tail = xs.getLast?
  seg : Seg h none xs none
  nodup : xs.Nodup

theorem Seg.frame {h h' : Heap} {xs : List Ptr} {pr nx : Option Ptr} (hs : Seg h pr xs nx) (he : ∀ x ∈ xs, h' x = h x) : Seg h' pr xs nx := by
  induction xs generalizing pr with
  | nil => trivial
  | cons x xs ih =>
    obtain ⟨h1, h2, h3⟩ := hs
    have hx := he x (by simp)
    exact ⟨by rw [hx]; exact h1, by rw [hx]; exact h2, ih h3 (fun y hy => he y (by simp [hy]))⟩

theorem Seg.append {h : Heap} {a b : List Ptr} {pr nx : Option Ptr} :
    Seg h pr (a ++ b) nx ↔ Seg h pr a (b.head?.or nx) ∧ Seg h (a.getLast?.or pr) b nx := by
  induction a generalizing pr with
  | nil => simp [Seg]
  | cons x a ih =>
    have e1 : ((a ++ b).head?.or nx) = a.head?.or (b.head?.or nx) := by cases a <;> simp
    have e2 : ((x :: a).getLast?.or pr) = a.getLast?.or (some x) := by
      cases a with
      | nil => simp
      | cons y a => simp [List.getLast?_cons_cons, List.getLast?_eq_some_getLast]
    simp only [List.cons_append, Seg, e1, ih, e2]
    constructor
    · rintro ⟨h1, h2, h3, h4⟩; exact ⟨⟨h1, h2, h3⟩, h4⟩
    · rintro ⟨⟨h1, h2, h3⟩, h4⟩; exact ⟨h1, h2, h3, h4⟩

/-- Changing where a segment ends. -/
theorem Seg.setNext_last {h : Heap} {a : List Ptr} {q : Ptr} {pr nx nx' : Option Ptr} (hs : Seg h pr (a ++ [q]) nx)
    (hn : (a ++ [q]).Nodup) : Seg (setNext h q nx') pr (a ++ [q]) nx' := by
  rw [Seg.append] at hs ⊢
  have hq : q ∉ a := by
    intro hm
    exact (List.nodup_append.1 hn).2.2 q hm q (by simp) rfl
  refine ⟨hs.1.frame ?_, ?_⟩
  · intro x hx
    unfold setNext
    have hne : x ≠ q := by rintro rfl; exact hq hx
    rw [if_neg hne]
  · obtain ⟨h1, _, _⟩ := hs.2
    refine ⟨?_, ?_, trivial⟩
    · unfold setNext; rw [if_pos rfl]; exact h1
    · unfold setNext; rw [if_pos rfl]; rfl

/-- Changing where a segment starts. -/
theorem Seg.setPrev_first {h : Heap} {q : Ptr} {b : List Ptr} {pr pr' nx : Option Ptr} (hs : Seg h pr (q :: b) nx) (hn : (q :: b).Nodup) :
    Seg (setPrev h q pr') pr' (q :: b) nx := by
  obtain ⟨h1, h2, h3⟩ := hs
  have hq := (List.nodup_cons.1 hn).1
  refine ⟨?_, ?_, h3.frame ?_⟩
  · unfold setPrev; rw [if_pos rfl]
  · unfold setPrev; rw [if_pos rfl]; exact h2
  · intro x hx
    unfold setPrev
    have hne : x ≠ q := by rintro rfl; exact hq hx
    rw [if_neg hne]

theorem setPrev_ne {h : Heap} {p q : Ptr} {v : Option Ptr} (hne : q ≠ p) : setPrev h p v q = h q := by unfold setPrev; rw [if_neg hne]
theorem setNext_ne {h : Heap} {p q : Ptr} {v : Option Ptr} (hne : q ≠ p) : setNext h p v q = h q := by unfold setNext; rw [if_neg hne]
theorem setPrev_eq (h : Heap) (p : Ptr) (v : Option Ptr) : setPrev h p v p = { h p with prev := v } := by unfold setPrev; rw [if_pos rfl]
theorem setNext_eq (h : Heap) (p : Ptr) (v : Option Ptr) : setNext h p v p = { h p with next := v } := by unfold setNext; rw [if_pos rfl]

/-! ### The operations on one list -/

theorem pushFront_spec {h : Heap} {l : LList} {xs : List Ptr} (hr : Rep h l xs) {p : Ptr} (hp : p ∉ xs) :
    ∃ h' l', pushFront h l p = some (h', l') ∧ Rep h' l' (p :: xs) ∧ ∀ q, q ≠ p → q ∉ xs → h' q = h q := by
  have hne : l.head ≠ some p := by
    rw [hr.head]
    intro he
    exact hp (List.mem_of_head? he)
  unfold pushFront
  rw [if_neg hne]
  refine ⟨_, _, rfl, ?_, ?_⟩
  · cases xs with
    | nil =>
      have h1 := hr.head
      have h2 := hr.tail
      simp only [List.head?_nil, List.getLast?_nil] at h1 h2
      refine ⟨rfl, ?_, ?_, by simp⟩
      · simp [h2]
      · rw [h1]
        refine ⟨?_, ?_, trivial⟩
        · simp [linkHead, setPrev]
        · simp [linkHead, setPrev, setNext]
    | cons x xs =>
      have h1 := hr.head
      have h2 := hr.tail
      simp only [List.head?_cons] at h1
      have hpx : p ≠ x := fun he => hp (by simp [he])
      have hpxs : p ∉ xs := fun he => hp (by simp [he])
      have hnd := hr.nodup
      refine ⟨rfl, ?_, ?_, List.nodup_cons.2 ⟨hp, hnd⟩⟩
      · simp only [h2, List.getLast?_cons_cons]
        simp [List.getLast?_cons]
      · rw [h1]
        refine ⟨?_, ?_, ?_⟩
        · show (setPrev (setPrev (setNext h p (some x)) p none) x (some p) p).prev = none
          rw [setPrev_ne hpx, setPrev_eq]
        · show (setPrev (setPrev (setNext h p (some x)) p none) x (some p) p).next = _
          rw [setPrev_ne hpx, setPrev_eq]
          show (setNext h p (some x) p).next = _
          rw [setNext_eq]; rfl
        · show Seg (setPrev (setPrev (setNext h p (some x)) p none) x (some p)) (some p) (x :: xs) none
          refine Seg.setPrev_first (pr := none) ?_ hnd
          refine hr.seg.frame ?_
          intro y hy
          have : y ≠ p := fun he => hp (he ▸ hy)
          rw [setPrev_ne this, setNext_ne this]
  · intro q hq hqx
    have e : linkHead (setPrev (setNext h p l.head) p none) l.head p q = setPrev (setNext h p l.head) p none q := by
      cases hh : l.head with
      | none => rfl
      | some x =>
        show setPrev _ x _ q = _
        rw [setPrev_ne]
        intro he
        rw [hr.head] at hh
        exact hqx (he ▸ List.mem_of_head? hh)
    show linkHead (setPrev (setNext h p l.head) p none) l.head p q = h q
    rw [e, setPrev_ne hq, setNext_ne hq]

theorem popBack_spec {h : Heap} {l : LList} {xs : List Ptr} (hr : Rep h l xs) :
    (popBack h l).2 = xs.getLast? ∧ Rep (popBack h l).1.1 (popBack h l).1.2 xs.dropLast ∧
      (∀ q, q ∉ xs → (popBack h l).1.1 q = h q) ∧ ∀ p, xs.getLast? = some p → (popBack h l).1.1 p = ⟨none, none⟩ := by
  rcases List.eq_nil_or_concat xs with rfl | ⟨a, p, rfl⟩
  · have h2 := hr.tail
    simp only [List.getLast?_nil] at h2
    have e : popBack h l = ((h, l), none) := by unfold popBack; rw [h2]
    rw [e]
    exact ⟨rfl, hr, fun _ _ => rfl, fun p hp => by cases hp⟩
  · rw [List.concat_eq_append] at hr ⊢
    have h2 := hr.tail
    rw [List.getLast?_concat] at h2
    have hseg := Seg.append.1 hr.seg
    obtain ⟨s1, s2, s3, _⟩ := hseg
    have hprev : (h p).prev = a.getLast? := by rw [s2, Option.or_none]
    have hnd := hr.nodup
    have hpa : p ∉ a := fun hm => (List.nodup_append.1 hnd).2.2 p hm p (by simp) rfl
    have hna : a.Nodup := (List.nodup_append.1 hnd).1
    rcases List.eq_nil_or_concat a with rfl | ⟨b, q, rfl⟩
    · have hpn : (h p).prev = none := by rw [hprev]; rfl
      have e : popBack h l = ((setNext (setPrev h p none) p none, ⟨none, none⟩), some p) := by
        unfold popBack; rw [h2]; simp only [hpn]; rfl
      rw [e]
      refine ⟨by simp, ⟨rfl, rfl, trivial, by simp⟩, ?_, ?_⟩
      · intro x hx
        have : x ≠ p := by simpa using hx
        show setNext (setPrev h p none) p none x = _
        rw [setNext_ne this, setPrev_ne this]
      · intro x hx
        simp only [List.nil_append, List.getLast?_singleton, Option.some.injEq] at hx
        subst hx
        show setNext (setPrev h p none) p none p = _
        rw [setNext_eq, setPrev_eq]
    · rw [List.concat_eq_append] at *
      have hpq : (h p).prev = some q := by rw [hprev]; simp
      have e : popBack h l = ((setNext (setPrev (setNext h q none) p none) p none, { l with tail := some q }), some p) := by
        unfold popBack; rw [h2]; simp only [hpq]; rfl
      rw [e]
      refine ⟨by simp, ⟨?_, ?_, ?_, ?_⟩, ?_, ?_⟩
      · show l.head = _
        rw [hr.head]
        rw [List.dropLast_concat]
        cases b <;> simp
      · rw [List.dropLast_concat]; simp
      · rw [List.dropLast_concat]
        have := Seg.setNext_last (nx' := none) s1 hna
        refine this.frame ?_
        intro x hx
        have : x ≠ p := fun he => hpa (he ▸ hx)
        show setNext (setPrev (setNext h q none) p none) p none x = _
        rw [setNext_ne this, setPrev_ne this]
      · rw [List.dropLast_concat]; exact hna
      · intro x hx
        have hxp : x ≠ p := fun he => hx (by simp [he])
        have hxq : x ≠ q := fun he => hx (by simp [he])
        show setNext (setPrev (setNext h q none) p none) p none x = _
        rw [setNext_ne hxp, setPrev_ne hxp, setNext_ne hxq]
      · intro x hx
        rw [List.getLast?_concat] at hx
        obtain rfl := Option.some.inj hx
        show setNext (setPrev (setNext h q none) p none) p none p = _
        rw [setNext_eq, setPrev_eq]

theorem remove_absent {h : Heap} {l : LList} {xs : List Ptr} (hr : Rep h l xs) {p : Ptr} (hp : p ∉ xs) (hz : h p = ⟨none, none⟩) :
    remove h l p = some ((h, l), none) := by
  have hne : l.head ≠ some p := by
    rw [hr.head]; intro he; exact hp (List.mem_of_head? he)
  have e : removePrev h l p = some none := by
    unfold removePrev
    rw [hz]
    simp only
    rw [if_pos hne]
  unfold remove
  rw [e]

/-- After the first half of a removal: everything before the node is linked to what follows it. -/
theorem removePrev_spec {h : Heap} {l : LList} {a b : List Ptr} {p : Ptr} (hr : Rep h l (a ++ p :: b)) :
    ∃ h1 l1, removePrev h l p = some (some (h1, l1)) ∧ l1.head = (a ++ b).head? ∧ l1.tail = l.tail ∧ Seg h1 none a b.head? ∧
      Seg h1 (some p) b none ∧ h1 p = h p ∧ ∀ q, q ∉ a → h1 q = h q := by
  have hs := Seg.append.1 hr.seg
  obtain ⟨s1, s2, s3, s4⟩ := hs
  have hnext : (h p).next = b.head? := by rw [s3, Option.or_none]
  have hnd := hr.nodup
  have hna : a.Nodup := (List.nodup_append.1 hnd).1
  have hnb : (p :: b).Nodup := (List.nodup_append.1 hnd).2.1
  have hdisj : ∀ x ∈ a, ∀ y ∈ p :: b, x ≠ y := (List.nodup_append.1 hnd).2.2
  rcases List.eq_nil_or_concat a with rfl | ⟨c, q, rfl⟩
  · have hpn : (h p).prev = none := by rw [s2]; rfl
    have e : removePrev h l p = some (some (h, { l with head := (h p).next })) := by
      unfold removePrev
      rw [hpn]
      simp only
      rw [if_neg]
      rw [hr.head]; simp
    exact ⟨h, _, e, by simp [hnext], rfl, trivial, s4, rfl, fun _ _ => rfl⟩
  · rw [List.concat_eq_append] at *
    have hpq : (h p).prev = some q := by rw [s2]; simp
    have hqn : (h q).next = some p := by
      have := (Seg.append.1 s1).2
      exact this.2.1
    have e : removePrev h l p = some (some (setNext h q (h p).next, l)) := by
      unfold removePrev
      rw [hpq]
      simp only
      rw [if_pos hqn]
    have hqp : p ≠ q := fun he => hdisj q (by simp) p (by simp) he.symm
    refine ⟨_, _, e, ?_, rfl, ?_, ?_, setNext_ne hqp, ?_⟩
    · rw [hr.head]
      cases c <;> simp
    · rw [hnext]
      exact Seg.setNext_last s1 hna
    · refine s4.frame ?_
      intro x hx
      exact setNext_ne (fun he => hdisj q (by simp) x (by simp [hx]) he.symm)
    · intro x hx
      exact setNext_ne (fun he => hx (by simp [he]))

theorem removeNext_spec {h : Heap} {l : LList} {a b : List Ptr} {p : Ptr} (hnd : (a ++ p :: b).Nodup) (hhead : l.head = (a ++ b).head?)
    (htail : l.tail = (a ++ p :: b).getLast?) (hsa : Seg h none a b.head?) (hsb : Seg h (some p) b none) (hn : (h p).next = b.head?)
    (hp : (h p).prev = a.getLast?) :
    ∃ h2 l2, removeNext h l p = some (some (h2, l2)) ∧ l2.head = (a ++ b).head? ∧ l2.tail = (a ++ b).getLast? ∧
      Seg h2 none (a ++ b) none ∧ ∀ q, q ∉ b → h2 q = h q := by
  have hnb : b.Nodup := (List.nodup_cons.1 (List.nodup_append.1 hnd).2.1).2
  have hpb : p ∉ b := (List.nodup_cons.1 (List.nodup_append.1 hnd).2.1).1
  have hdisj : ∀ x ∈ a, ∀ y ∈ p :: b, x ≠ y := (List.nodup_append.1 hnd).2.2
  cases b with
  | nil =>
    have hnn : (h p).next = none := hn
    have e : removeNext h l p = some (some (h, { l with tail := (h p).prev })) := by
      unfold removeNext
      rw [hnn]
      simp only
      rw [if_neg]
      rw [htail]; simp
    refine ⟨_, _, e, hhead, ?_, ?_, fun _ _ => rfl⟩
    · simp [hp]
    · simpa using hsa
  | cons q b =>
    have hnq : (h p).next = some q := hn
    have hqp : (h q).prev = some p := hsb.1
    have e : removeNext h l p = some (some (setPrev h q (h p).prev, l)) := by
      unfold removeNext
      rw [hnq]
      simp only
      rw [if_pos hqp]
    refine ⟨_, _, e, hhead, ?_, ?_, ?_⟩
    · rw [htail]
      simp [List.getLast?_append, List.getLast?_cons]
    · rw [Seg.append, Option.or_none, Option.or_none]
      refine ⟨hsa.frame ?_, ?_⟩
      · intro x hx
        exact setPrev_ne (fun he => hdisj x hx q (by simp) he)
      · rw [hp]
        exact Seg.setPrev_first hsb hnb
    · intro x hx
      exact setPrev_ne (fun he => hx (by simp [he]))

theorem erase_mid {a b : List Ptr} {p : Ptr} (h : (a ++ p :: b).Nodup) : (a ++ p :: b).erase p = a ++ b := by
  have hpa : p ∉ a := fun hm => (List.nodup_append.1 h).2.2 p hm p (by simp) rfl
  rw [List.erase_append_right _ hpa, List.erase_cons_head]

theorem remove_spec {h : Heap} {l : LList} {xs : List Ptr} (hr : Rep h l xs) {p : Ptr} (hp : p ∈ xs) :
    ∃ h' l', remove h l p = some ((h', l'), some p) ∧ Rep h' l' (xs.erase p) ∧ h' p = ⟨none, none⟩ ∧ ∀ q, q ∉ xs → h' q = h q := by
  obtain ⟨a, b, rfl⟩ := List.append_of_mem hp
  have hnd := hr.nodup
  have hs := Seg.append.1 hr.seg
  obtain ⟨h1, l1, e1, p1, p2, p3, p4, p5, p6⟩ := removePrev_spec hr
  have hn : (h1 p).next = b.head? := by rw [p5, hs.2.2.1, Option.or_none]
  have hpr : (h1 p).prev = a.getLast? := by rw [p5, hs.2.1, Option.or_none]
  obtain ⟨h2, l2, e2, q1, q2, q3, q4⟩ := removeNext_spec hnd p1 (by rw [p2]; exact hr.tail) p3 p4 hn hpr
  have e : remove h l p = some ((setPrev (setNext h2 p none) p none, l2), some p) := by
    unfold remove
    rw [e1]
    simp only
    rw [e2]
  refine ⟨_, _, e, ?_, ?_, ?_⟩
  · rw [erase_mid hnd]
    have hpab : p ∉ a ++ b := by
      have := List.nodup_append.1 hnd
      intro hm
      rcases List.mem_append.1 hm with hm | hm
      · exact this.2.2 p hm p (by simp) rfl
      · exact (List.nodup_cons.1 this.2.1).1 hm
    refine ⟨q1, q2, q3.frame ?_, ?_⟩
    · intro x hx
      have : x ≠ p := fun he => hpab (he ▸ hx)
      rw [setPrev_ne this, setNext_ne this]
    · have := List.nodup_append.1 hnd
      rw [List.nodup_append]
      exact ⟨this.1, (List.nodup_cons.1 this.2.1).2, fun x hx y hy => this.2.2 x hx y (by simp [hy])⟩
  · rw [setPrev_eq, setNext_eq]
  · intro x hx
    have hxp : x ≠ p := fun he => hx (by simp [he])
    rw [setPrev_ne hxp, setNext_ne hxp, q4 x (fun hm => hx (by simp [hm])), p6 x (fun hm => hx (by simp [hm]))]

/-! ### All lists -/

structure Inv (s : State) (f : Lists) : Prop where
  rep : ∀ l, Rep s.heap (s.lists l) (f l)
  disjoint : ∀ l m p, p ∈ f l → p ∈ f m → l = m
  free : ∀ p, (∀ l, p ∉ f l) → s.heap p = ⟨none, none⟩

theorem inv_init : Inv init (fun _ => []) :=
  ⟨fun _ => ⟨rfl, rfl, trivial, by simp⟩, fun _ _ _ h => by simp at h, fun _ _ => rfl⟩

theorem Rep.frame {h h' : Heap} {l : LList} {xs : List Ptr} (hr : Rep h l xs) (he : ∀ x ∈ xs, h' x = h x) : Rep h' l xs :=
  ⟨hr.head, hr.tail, hr.seg.frame he, hr.nodup⟩

/-- A change of one list that touches only its own nodes and one more. -/
theorem Inv.change {s : State} {f : Lists} (hi : Inv s f) {l : Nat} {h' : Heap} {v : LList} {xs : List Ptr}
    (hr : Rep h' v xs) (hin : ∀ p ∈ xs, p ∈ f l ∨ ∀ m, p ∉ f m)
    (hframe : ∀ q, q ∉ f l → q ∉ xs → h' q = s.heap q) (hout : ∀ q ∈ f l, q ∉ xs → h' q = ⟨none, none⟩) :
    Inv ⟨h', setList s.lists l v⟩ (f.set l xs) := by
  refine ⟨?_, ?_, ?_⟩
  · intro m
    by_cases hm : m = l
    · subst hm
      simp only [setList, Lists.set, if_pos]
      exact hr
    · simp only [setList, Lists.set, if_neg hm]
      refine (hi.rep m).frame ?_
      intro x hx
      apply hframe
      · intro hxl; exact hm (hi.disjoint m l x hx hxl)
      · intro hxx
        rcases hin x hxx with h | h
        · exact hm (hi.disjoint m l x hx h)
        · exact h m hx
  · intro a b p ha hb
    simp only [Lists.set] at ha hb
    split at ha <;> split at hb
    · rename_i h1 h2; rw [h1, h2]
    · rename_i h1 h2
      exfalso
      rcases hin p ha with h | h
      · exact h2 (hi.disjoint b l p hb h)
      · exact h b hb
    · rename_i h1 h2
      exfalso
      rcases hin p hb with h | h
      · exact h1 (hi.disjoint a l p ha h)
      · exact h a ha
    · exact hi.disjoint a b p ha hb
  · intro p hp
    have hpx : p ∉ xs := by have := hp l; simpa [Lists.set] using this
    by_cases hpl : p ∈ f l
    · exact hout p hpl hpx
    · show h' p = _
      rw [hframe p hpl hpx]
      apply hi.free
      intro m hm
      have := hp m
      by_cases hml : m = l
      · subst hml; exact hpl hm
      · simp only [Lists.set, if_neg hml] at this
        exact this hm

theorem step_spec {s : State} {f : Lists} (hi : Inv s f) {op : Op} (hc : Contract f op) :
    ∃ s', step s op = some (s', (specStep f op).2) ∧ Inv s' (specStep f op).1 := by
  cases op with
  | push l p =>
    have hc : ∀ m, p ∉ f m := hc
    obtain ⟨h', l', e, hr, hf⟩ := pushFront_spec (hi.rep l) (hc l)
    refine ⟨⟨h', setList s.lists l l'⟩, ?_, ?_⟩
    · show (pushFront _ _ _).map _ = _
      rw [e]; rfl
    · refine hi.change hr ?_ ?_ ?_
      · intro q hq
        rcases List.mem_cons.1 hq with rfl | hq
        · exact Or.inr hc
        · exact Or.inl hq
      · intro q hq hqx
        exact hf q (fun he => hqx (by simp [he])) hq
      · intro q hq hqx
        exact absurd (List.mem_cons_of_mem _ hq) hqx
  | pop l =>
    obtain ⟨e1, hr, hf, hz⟩ := popBack_spec (hi.rep l)
    refine ⟨_, by show some _ = _; rw [e1]; rfl, ?_⟩
    refine hi.change hr (fun q hq => Or.inl ((List.dropLast_sublist _).subset hq)) (fun q hq _ => hf q hq) ?_
    intro q hq hqx
    apply hz
    rcases List.eq_nil_or_concat (f l) with h | ⟨a, p, h⟩
    · rw [h] at hq; cases hq
    · rw [List.concat_eq_append] at h
      rw [h] at hq hqx ⊢
      rw [List.dropLast_concat] at hqx
      rw [List.getLast?_concat]
      rcases List.mem_append.1 hq with h1 | h1
      · exact absurd h1 hqx
      · rw [List.mem_singleton.1 h1]
  | remove l p =>
    have hc : p ∈ f l ∨ ∀ m, p ∉ f m := hc
    by_cases hp : p ∈ f l
    · obtain ⟨h', l', e, hr, hz, hf⟩ := remove_spec (hi.rep l) hp
      refine ⟨⟨h', setList s.lists l l'⟩, ?_, ?_⟩
      · show (remove _ _ _).map _ = some (_, if p ∈ f l then some p else none)
        rw [e, if_pos hp]; rfl
      · refine hi.change hr (fun q hq => Or.inl (List.mem_of_mem_erase hq)) (fun q hq _ => hf q hq) ?_
        intro q hq hqx
        have : q = p := by
          by_cases hqp : q = p
          · exact hqp
          · exact absurd ((List.mem_erase_of_ne hqp).2 hq) hqx
        rw [this]; exact hz
    · have hn : ∀ m, p ∉ f m := by
        rcases hc with h | h
        · exact absurd h hp
        · exact h
      have e := remove_absent (hi.rep l) hp (hi.free p hn)
      refine ⟨⟨s.heap, setList s.lists l (s.lists l)⟩, ?_, ?_⟩
      · show (remove _ _ _).map _ = some (_, if p ∈ f l then some p else none)
        rw [e, if_neg hp]; rfl
      · show Inv _ (f.set l ((f l).erase p))
        rw [List.erase_of_not_mem hp]
        exact hi.change (hi.rep l) (fun q hq => Or.inl hq) (fun q _ _ => rfl) (fun q hq hqx => absurd hq hqx)
  | last l => exact ⟨s, by show some _ = _; rw [show last (s.lists l) = (f l).getLast? from (hi.rep l).tail]; rfl, hi⟩

/-- Any calls that keep the contract: no assertion fails, every call returns what plain lists would return, and at the end each list holds
exactly the nodes of the plain list in that order, while nodes in no list are not linked. -/
theorem intrusive_list_correct {ops : List Op} (ho : RunOk (fun _ => []) ops) :
    ∃ s, run init ops = some (s, (specRun (fun _ => []) ops).2) ∧
      (∀ l, Rep s.heap (s.lists l) ((specRun (fun _ => []) ops).1 l)) ∧
      ∀ p, (∀ l, p ∉ (specRun (fun _ => []) ops).1 l) → s.heap p = ⟨none, none⟩ := by
  have key : ∀ (ops : List Op) (s : State) (f : Lists), Inv s f → RunOk f ops →
      ∃ s', run s ops = some (s', (specRun f ops).2) ∧ Inv s' (specRun f ops).1 := by
    intro ops
    induction ops with
    | nil => intro s f hi _; exact ⟨s, rfl, hi⟩
    | cons op ops ih =>
      intro s f hi ho
      obtain ⟨s1, e1, h1⟩ := step_spec hi ho.1
      obtain ⟨s2, e2, h2⟩ := ih s1 _ h1 ho.2
      refine ⟨s2, ?_, h2⟩
      show (step s op).bind _ = _
      rw [e1, Option.bind_some, e2]; rfl
  obtain ⟨s, e, h⟩ := key ops init _ inv_init ho
  exact ⟨s, e, h.rep, h.free⟩

/-- Following `next` from a node of the list gives the nodes behind it, following `prev` those before it. -/
theorem rep_walk {h : Heap} {l : LList} {xs a b : List Ptr} {p : Ptr} (hr : Rep h l xs) (he : xs = a ++ p :: b) :
    (h p).next = b.head? ∧ (h p).prev = a.getLast? := by
  subst he
  obtain ⟨_, h2, h3, _⟩ := Seg.append.1 hr.seg
  exact ⟨by rw [h3, Option.or_none], by rw [h2, Option.or_none]⟩

end Tycho.IntrusiveList
