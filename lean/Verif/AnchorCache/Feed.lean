import Verif.AnchorCache.Wake
/-!
The collator's feed: a reader that asks for an anchor and then for the next one again and again gets a contiguous part of
the history that was pushed, whatever closings, reopenings and clean-ups come in between.
-/
namespace Tycho.AnchorCache

/-- The cache, the history of pushed anchors that still counts, and what a reader has got. -/
structure Feed where
  cache : Cache
  log : List Anchor
  got : List Anchor
  bad : Bool
  deriving Repr, DecidableEq

/-- What happens to it: the writer's operations, and the reader's (`get_anchor_by_id` first, `get_next_anchor` with the
last anchor's id afterwards, as in collator/src/collator/mod.rs:1017-1353). -/
inductive FeedOp where
  | close (after : Nat)
  | reopen (dropData : Bool)
  | push (a : Anchor)
  | setPaused (p : Bool)
  | clear (before : Nat)
  | first (id : Nat)
  | read
  deriving Repr, DecidableEq

/-- The reader takes an answer. -/
def Feed.take (w : Feed) : Answer → Feed
  | .wait => w
  | .some a => { w with got := w.got ++ [a] }
  | _ => { w with bad := true }

/-- The history after a push: it grows by an anchor the cache did not know. -/
def Feed.logPush (w : Feed) (a : Anchor) : List Anchor :=
  if (find w.cache.anchors a.id).isSome then w.log else w.log ++ [a]

/-- The history after a reopening: if data is dropped, what comes after the closing point does not count any more. -/
def Feed.logReopen (w : Feed) (d : Bool) : List Anchor :=
  match w.cache.off with
  | none => w.log
  | some x => if d then w.log.filter (fun a => decide (a.id ≤ x)) else w.log

/-- One operation. -/
def Feed.step (w : Feed) : FeedOp → Feed
  | .close x => { w with cache := w.cache.close x }
  | .reopen d => { w with cache := (w.cache.reopen d).1, log := w.logReopen d }
  | .push a => { w with cache := (w.cache.push a).1, log := w.logPush a }
  | .setPaused p => { w with cache := w.cache.setPaused p }
  | .clear b => { w with cache := w.cache.clear b }
  | .first id =>
    match w.got, w.cache.byId id with
    | [], .some a => { w with got := [a] }
    | _, _ => w
  | .read =>
    match w.got.getLast? with
    | none => w
    | some g => w.take (w.cache.next g.id)

/-- A history. -/
def Feed.run (w : Feed) (l : List FeedOp) : Feed := l.foldl Feed.step w

/-- The start. -/
def Feed.new : Feed := ⟨.new, [], [], false⟩

/-- What writers keep to: a new anchor has an id above the whole history and a link to its end (or none, after a break);
the cache is closed at, and cleaned up to, nothing that the reader has not got to yet or is at (the collator cleans up to
its processed anchors, and a new genesis starts not before its last one). -/
def FeedOp.ok (w : Feed) : FeedOp → Prop
  | .push a => (∃ b ∈ w.cache.anchors, b.id = a.id) ∨
      ((∀ b ∈ w.log, b.id < a.id) ∧ (∀ b, w.log.getLast? = some b → a.follows b.id = true))
  | .close x => ∀ g ∈ w.got, g.id ≤ x
  | .clear b => ∀ g, w.got.getLast? = some g → b ≤ g.id
  | _ => True

/-- A history of such operations. -/
def feedOk (w : Feed) : List FeedOp → Prop
  | [] => True
  | a :: l => a.ok w ∧ feedOk (w.step a) l

/-- Each anchor follows the one before it. -/
def Linked (l : List Anchor) : Prop := ∀ pre a b post, l = pre ++ a :: b :: post → b.follows a.id = true

theorem Linked.prefix {l m : List Anchor} (h : Linked (l ++ m)) : Linked l := by
  intro pre a b post he
  exact h pre a b (post ++ m) (by rw [he]; simp)

theorem linked_snoc {l : List Anchor} (h : Linked l) (a : Anchor) (ha : ∀ b, l.getLast? = some b → a.follows b.id = true) :
    Linked (l ++ [a]) := by
  intro pre x y post he
  rcases List.eq_nil_or_concat post with hp | ⟨post', z, hp⟩
  · subst hp
    have e1 : l ++ [a] = (pre ++ [x]) ++ [y] := by rw [he]; simp
    obtain ⟨h1, h2⟩ := List.append_inj' e1 rfl
    injection h2 with h2
    subst h2
    exact ha x (by rw [h1]; simp)
  · subst hp
    have e1 : l ++ [a] = (pre ++ x :: y :: post') ++ [z] := by rw [he]; simp
    exact h pre x y post' (List.append_inj' e1 rfl).1

/-- What holds between operations. -/
structure FeedInv (w : Feed) : Prop where
  ord : Ordered w.log
  linked : Linked w.log
  fits : ∃ old, w.log = old ++ w.cache.anchors
  seg : w.got = [] ∨ ∃ old g mid post, w.got.getLast? = some g ∧ w.log = old ++ mid ++ g :: post ∧
    w.cache.anchors = mid ++ g :: post ∧ ∃ pre, w.log = pre ++ w.got ++ post
  vis : ∀ g ∈ w.got, w.cache.isOff g.id = false
  good : w.bad = false

theorem filter_split {l : List Anchor} (h : Ordered l) (pre post : List Anchor) (g : Anchor) (x : Nat)
    (he : l = pre ++ g :: post) (hg : g.id ≤ x) :
    l.filter (fun a => decide (a.id ≤ x)) = pre ++ g :: post.filter (fun a => decide (a.id ≤ x)) := by
  subst he
  rw [List.filter_append, List.filter_cons, if_pos (by simpa using hg)]
  congr 1
  apply List.filter_eq_self.2
  intro a ha
  have := (List.pairwise_append.1 h).2.2 a ha g List.mem_cons_self
  simp only [decide_eq_true_eq]
  omega

theorem ordered_prefix_filter {l : List Anchor} (h : Ordered l) (x : Nat) :
    ∃ rest, l = l.filter (fun a => decide (a.id ≤ x)) ++ rest := by
  refine ⟨l.dropWhile (fun a => decide (a.id < x + 1)), ?_⟩
  have : l.filter (fun a => decide (a.id ≤ x)) = l.takeWhile (fun a => decide (a.id < x + 1)) := by
    rw [takeWhile_eq_filter h]
    congr 1
    funext a
    rw [decide_eq_decide]
    omega
  rw [this, List.takeWhile_append_dropWhile]

theorem ordered_post {pre post : List Anchor} {g : Anchor} (h : Ordered (pre ++ g :: post)) :
    (∀ a ∈ pre, a.id < g.id) ∧ ∀ a ∈ post, g.id < a.id := by
  obtain ⟨_, h2, h3⟩ := List.pairwise_append.1 h
  exact ⟨fun a ha => h3 a ha g List.mem_cons_self, fun a ha => (List.pairwise_cons.1 h2).1 a ha⟩

/-- What the reader is told next. -/
def nextTold (c : Cache) (post : List Anchor) : Answer :=
  match post with
  | [] => .wait
  | n :: _ => if c.isOff n.id then .wait else .some n

theorem next_of_seg {c : Cache} (h : Ordered c.anchors) (mid post : List Anchor) (g : Anchor)
    (hc : c.anchors = mid ++ g :: post) (hlink : ∀ n l, post = n :: l → n.follows g.id = true)
    (hv : c.isOff g.id = false) : c.next g.id = nextTold c post := by
  have hx : c.next g.id = specNext c.visible g.id := answer_exact c h (.next g.id)
  rw [hx]
  have hgv : g ∈ c.visible := (mem_visible _ _).2 ⟨by rw [hc]; simp, hv⟩
  obtain ⟨hpre, hpost⟩ := ordered_post (hc ▸ h)
  unfold specNext
  have hany : c.visible.any (fun a => decide (a.id = g.id)) = true := List.any_eq_true.2 ⟨g, hgv, by simp⟩
  have hfind : c.visible.find? (fun a => decide (g.id < a.id)) =
      (post.filter (fun a => !c.isOff a.id)).head? := by
    have : c.visible = (mid ++ g :: post).filter (fun a => !c.isOff a.id) := by
      unfold Cache.visible
      cases ho : c.off with
      | none =>
        simp only [hc]
        exact (List.filter_eq_self.2 (fun a _ => by simp [Cache.isOff, ho])).symm
      | some x =>
        simp only [hc]
        congr 1
        funext a
        simp only [Cache.isOff, ho]
        by_cases hax : a.id ≤ x
        · rw [decide_eq_true hax, decide_eq_false (by omega)]; rfl
        · rw [decide_eq_false hax, decide_eq_true (by omega)]; rfl
    rw [this, List.filter_append, List.find?_append]
    have e1 : (mid.filter (fun a => !c.isOff a.id)).find? (fun a => decide (g.id < a.id)) = none := by
      rw [List.find?_eq_none]
      intro a ha
      have := hpre a (List.mem_filter.1 ha).1
      simp only [decide_eq_true_eq]; omega
    rw [e1, List.filter_cons, if_pos (by simp [hv]), List.find?_cons, decide_eq_false (Nat.lt_irrefl _)]
    simp only [Option.none_or]
    cases hp : post.filter (fun a => !c.isOff a.id) with
    | nil => rfl
    | cons n l =>
      have : n ∈ post := (List.mem_filter.1 (hp ▸ List.mem_cons_self : n ∈ post.filter _)).1
      rw [List.find?_cons, decide_eq_true (hpost n this)]
      rfl
  rw [hfind, hany]
  unfold nextTold
  cases hp : post with
  | nil => rfl
  | cons n l =>
    have ho : Ordered (mid ++ g :: n :: l) := by rw [← hp, ← hc]; exact h
    by_cases hn : c.isOff n.id = true
    · have hall : (n :: l).filter (fun a => !c.isOff a.id) = [] := by
        rw [List.filter_eq_nil_iff]
        intro a ha
        have : n.id ≤ a.id := by
          rcases List.mem_cons.1 ha with e | e
          · exact e ▸ Nat.le_refl _
          · have h2 := (List.pairwise_append.1 ho).2.1
            exact Nat.le_of_lt ((List.pairwise_cons.1 (List.pairwise_cons.1 h2).2).1 a e)
        have := off_mono hn this
        simp [this]
      rw [hall]
      simp only [List.head?_nil, if_pos hn]
    · rw [List.filter_cons, if_pos (by simp [hn])]
      simp only [List.head?_cons, if_neg hn, if_pos (hlink n l hp), if_true]

theorem follows_in {w : Feed} (h : FeedInv w) {old mid post : List Anchor} {g : Anchor}
    (he : w.log = old ++ mid ++ g :: post) : ∀ n l, post = n :: l → n.follows g.id = true := by
  intro n l hp
  exact h.linked (old ++ mid) g n l (by rw [he, hp])

theorem anchors_ord {w : Feed} (h : FeedInv w) : Ordered w.cache.anchors := by
  obtain ⟨old, ho⟩ := h.fits
  exact h.ord.sub (by rw [ho]; exact List.sublist_append_right _ _)

theorem getLast?_mem {l : List Anchor} {g : Anchor} (h : l.getLast? = some g) : g ∈ l := List.mem_of_getLast? h

theorem feed_step {w : Feed} (h : FeedInv w) (a : FeedOp) (hok : a.ok w) : FeedInv (w.step a) := by
  cases a with
  | close x =>
    refine ⟨h.ord, h.linked, h.fits, h.seg, ?_, h.good⟩
    intro g hg
    have : g.id ≤ x := hok g hg
    change decide (x < g.id) = false
    exact decide_eq_false (by omega)
  | reopen d =>
    cases ho : w.cache.off with
    | none =>
      have : w.step (.reopen d) = w := by
        simp [Feed.step, Cache.reopen, Feed.logReopen, ho]
      rw [this]; exact h
    | some x =>
      cases d with
      | false =>
        have e : w.step (.reopen false) = { w with cache := { w.cache with off := none, owed := w.cache.owed + 1 } } := by
          simp [Feed.step, Cache.reopen, Feed.logReopen, ho]
        rw [e]
        exact ⟨h.ord, h.linked, h.fits, h.seg, fun _ _ => rfl, h.good⟩
      | true =>
        have hcut : w.cache.anchors.take (pos w.cache.anchors (x + 1)) =
            w.cache.anchors.filter (fun a => decide (a.id ≤ x)) := by
          rw [take_pos, takeWhile_eq_filter (anchors_ord h)]
          congr 1
          funext a
          rw [decide_eq_decide]
          omega
        have e : w.step (.reopen true) =
            { w with
              cache := { w.cache with
                off := none, anchors := w.cache.anchors.filter (fun a => decide (a.id ≤ x)), owed := w.cache.owed + 1 }
              log := w.log.filter (fun a => decide (a.id ≤ x)) } := by
          simp [Feed.step, Cache.reopen, Feed.logReopen, ho, hcut]
        rw [e]
        refine ⟨h.ord.sub List.filter_sublist, ?_, ?_, ?_, fun _ _ => rfl, h.good⟩
        · obtain ⟨rest, hr⟩ := ordered_prefix_filter h.ord x
          have := h.linked
          rw [hr] at this
          exact this.prefix
        · obtain ⟨old, hf⟩ := h.fits
          exact ⟨old.filter (fun a => decide (a.id ≤ x)), by simp only; rw [hf, List.filter_append]⟩
        · rcases h.seg with hs | ⟨old, g, mid, post, hg, hl, hc, pre, hp⟩
          · exact Or.inl hs
          · right
            have hgx : g.id ≤ x := by
              have := h.vis g (getLast?_mem hg)
              simp only [Cache.isOff, ho, decide_eq_false_iff_not] at this
              omega
            have e1 : w.log.filter (fun a => decide (a.id ≤ x)) =
                (old ++ mid) ++ g :: post.filter (fun a => decide (a.id ≤ x)) := filter_split h.ord _ _ _ _ hl hgx
            refine ⟨old, g, mid, post.filter (fun a => decide (a.id ≤ x)), hg, e1,
              filter_split (anchors_ord h) _ _ _ _ hc hgx, pre, ?_⟩
            obtain ⟨init, hinit⟩ : ∃ init, w.got = init ++ [g] := by
              rcases List.eq_nil_or_concat w.got with hn | ⟨init, z, hz⟩
              · rw [hn] at hg; cases hg
              · rw [hz] at hg
                simp at hg
                exact ⟨init, by rw [hz, hg]; simp⟩
            have := filter_split h.ord (pre ++ init) post g x (by rw [hp, hinit]; simp) hgx
            simp only
            rw [this, hinit]
            simp
  | push a =>
    by_cases hk : (find w.cache.anchors a.id).isSome = true
    · obtain ⟨old, hold⟩ := Option.isSome_iff_exists.1 hk
      have : w.step (.push a) = w := by
        simp [Feed.step, Cache.push, Feed.logPush, hold]
      rw [this]; exact h
    · have hn : find w.cache.anchors a.id = none := by simpa using hk
      have e : w.step (.push a) =
          { w with cache := { w.cache with anchors := w.cache.anchors ++ [a], owed := w.cache.owed + 1 }
                   log := w.log ++ [a] } := by
        simp [Feed.step, Cache.push, Feed.logPush, hn]
      rw [e]
      have hok : (∀ b ∈ w.log, b.id < a.id) ∧ (∀ b, w.log.getLast? = some b → a.follows b.id = true) := by
        rcases hok with ⟨b, hb, he⟩ | hok
        · exact absurd he ((find_none_iff _ _).1 hn b hb)
        · exact hok
      refine ⟨?_, linked_snoc h.linked a hok.2, ?_, ?_, h.vis, h.good⟩
      · refine List.pairwise_append.2 ⟨h.ord, by simp, ?_⟩
        intro b hb d hd
        rw [List.mem_singleton] at hd
        exact hd ▸ hok.1 b hb
      · obtain ⟨old, hf⟩ := h.fits
        exact ⟨old, by simp only; rw [hf]; simp⟩
      · rcases h.seg with hs | ⟨old, g, mid, post, hg, hl, hc, pre, hp⟩
        · exact Or.inl hs
        · right
          exact ⟨old, g, mid, post ++ [a], hg, by simp only; rw [hl]; simp, by simp only; rw [hc]; simp, pre,
            by simp only; rw [hp]; simp⟩
  | setPaused p => exact ⟨h.ord, h.linked, h.fits, h.seg, h.vis, h.good⟩
  | clear b =>
    refine ⟨h.ord, h.linked, ?_, ?_, h.vis, h.good⟩
    · obtain ⟨old, hf⟩ := h.fits
      refine ⟨old ++ w.cache.anchors.take (pos w.cache.anchors b), ?_⟩
      change w.log = _ ++ w.cache.anchors.drop _
      rw [List.append_assoc, List.take_append_drop]
      exact hf
    · rcases h.seg with hs | ⟨old, g, mid, post, hg, hl, hc, pre, hp⟩
      · exact Or.inl hs
      · right
        have hb : b ≤ g.id := hok g hg
        have hpos : pos w.cache.anchors b ≤ mid.length := by
          unfold pos
          rw [hc, List.takeWhile_append]
          split
          · rw [List.takeWhile_cons, decide_eq_false (by omega)]
            simp
          · exact (List.takeWhile_sublist _).length_le
        refine ⟨old ++ mid.take (pos w.cache.anchors b), g, mid.drop (pos w.cache.anchors b), post, hg, ?_, ?_, pre, hp⟩
        · change w.log = _
          rw [hl]
          simp
        · change w.cache.anchors.drop (pos w.cache.anchors b) = _
          generalize pos w.cache.anchors b = k at *
          rw [hc, List.drop_append_of_le_length hpos]
  | first id =>
    unfold Feed.step
    simp only
    split
    · rename_i a hgot hby
      have hby : specById w.cache.visible id = .some a := (answer_exact w.cache (anchors_ord h) (.byId id)).symm.trans hby
      have hmem : a ∈ w.cache.visible := by
        unfold specById at hby
        split at hby
        · rename_i b hb
          injection hby with hby
          exact hby ▸ List.mem_of_find?_eq_some hb
        · split at hby <;> cases hby
      obtain ⟨h1, h2⟩ := (mem_visible _ _).1 hmem
      obtain ⟨mid, post, hc⟩ := List.append_of_mem h1
      obtain ⟨old, hf⟩ := h.fits
      refine ⟨h.ord, h.linked, h.fits, Or.inr ⟨old, a, mid, post, rfl, by simp only; rw [hf, hc]; simp, hc, old ++ mid,
        by simp only; rw [hf, hc]; simp⟩, ?_, h.good⟩
      intro g hg
      rw [List.mem_singleton] at hg
      exact hg ▸ h2
    · exact h
  | read =>
    unfold Feed.step
    simp only
    split
    · exact h
    · rename_i g hg
      rcases h.seg with hs | ⟨old, g', mid, post, hg', hl, hc, pre, hp⟩
      · rw [hs] at hg; cases hg
      · rw [hg] at hg'
        injection hg' with hg'
        subst hg'
        rw [next_of_seg (anchors_ord h) mid post g hc (follows_in h hl) (h.vis g (getLast?_mem hg))]
        unfold nextTold
        split
        · exact h
        · rename_i n l
          split
          · exact h
          · rename_i hoff
            change FeedInv { w with got := w.got ++ [n] }
            refine ⟨h.ord, h.linked, h.fits, Or.inr ⟨old, n, mid ++ [g], l, by simp, by simp only; rw [hl]; simp,
              by simp only; rw [hc]; simp, pre, by simp only; rw [hp]; simp⟩, ?_, h.good⟩
            intro x hx
            rcases List.mem_append.1 hx with hx | hx
            · exact h.vis x hx
            · rw [List.mem_singleton] at hx
              rw [hx]
              simpa using hoff

theorem feed_run (l : List FeedOp) : ∀ {w : Feed}, FeedInv w → feedOk w l → FeedInv (w.run l) := by
  induction l with
  | nil => exact fun h _ => h
  | cons a l ih => exact fun h hok => ih (feed_step h a hok.1) hok.2

theorem feed_new : FeedInv .new :=
  ⟨List.Pairwise.nil, by intro pre a b post he; simp [Feed.new] at he, ⟨[], rfl⟩, Or.inl rfl, by simp [Feed.new], rfl⟩

/-- **A reader gets a contiguous part of the history.** After any history of pushes in order, closings, reopenings with
or without dropping data, and clean-ups of what is processed: what the reader has got is a piece of the history without
gaps; it was never told "does not exist" or an error; and its next request gives the anchor that follows in the history,
unless there is none or it is closed, when the reader waits. -/
theorem reader_gets_the_chain (l : List FeedOp) (hok : feedOk .new l) :
    ∃ pre post, (Feed.new.run l).log = pre ++ (Feed.new.run l).got ++ post ∧ (Feed.new.run l).bad = false ∧
      ∀ g, (Feed.new.run l).got.getLast? = some g →
        (Feed.new.run l).cache.next g.id =
          match post.head? with
          | none => .wait
          | some n => if (Feed.new.run l).cache.isOff n.id then .wait else .some n := by
  have h := feed_run l feed_new hok
  generalize Feed.new.run l = w at *
  rcases h.seg with hs | ⟨old, g, mid, post, hg, hl, hc, pre, hp⟩
  · exact ⟨[], w.log, by rw [hs]; rfl, h.good, fun g hg => by rw [hs] at hg; cases hg⟩
  · refine ⟨pre, post, hp, h.good, fun g' hg' => ?_⟩
    rw [hg] at hg'
    injection hg' with hg'
    subst hg'
    rw [next_of_seg (anchors_ord h) mid post g hc (follows_in h hl) (h.vis g (getLast?_mem hg))]
    cases post <;> rfl

end Tycho.AnchorCache
