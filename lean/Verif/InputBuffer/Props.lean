import Verif.InputBuffer.Inv
import Mathlib.Tactic.ByContra
/-!
What a user of the input buffer sees, for every history of calls.
-/
namespace Tycho.InputBuffer

/-- What a call of `fetch` returns after the history. -/
def fetched (ops : List Op) (onlyFresh : Bool) : List Msg := ((run ops).fetch onlyFresh).2

/-- What a call does to the list of accepted messages; `on` once there is a configuration. -/
def accStep : Bool × List Msg → Op → Bool × List Msg
  | (on, l), .push m => (on, if on then l ++ [m] else l)
  | (_, l), .config _ _ => (true, l)
  | (on, l), .fetch _ => (on, l)

/-- The messages that were pushed after the first configuration. -/
def accepted (ops : List Op) : List Msg := (ops.foldl accStep (false, [])).2

/-- Is there a configuration in the history? -/
def configured (ops : List Op) : Bool := (ops.foldl accStep (false, [])).1

theorem accepted_push (ops : List Op) (m : Msg) :
    accepted (ops ++ [.push m]) = if configured ops then accepted ops ++ [m] else accepted ops := by
  simp only [accepted, configured, List.foldl_append, List.foldl_cons, List.foldl_nil]
  rfl
theorem accepted_config (ops : List Op) (b c : Nat) : accepted (ops ++ [.config b c]) = accepted ops := by simp [accepted, accStep]
theorem accepted_fetch (ops : List Op) (f : Bool) : accepted (ops ++ [.fetch f]) = accepted ops := by simp [accepted, accStep]
theorem configured_push (ops : List Op) (m : Msg) : configured (ops ++ [.push m]) = configured ops := by simp [configured, accStep]
theorem configured_config (ops : List Op) (b c : Nat) : configured (ops ++ [.config b c]) = true := by simp [configured, accStep]
theorem configured_fetch (ops : List Op) (f : Bool) : configured (ops ++ [.fetch f]) = configured ops := by simp [configured, accStep]

/-- No call panics, if no pushed message is larger than the configured buffer. -/
theorem never_panics (ops : List Op) (h : Fits ops) : (run ops).bad = false := (inv_run ops h).good

/-- The configuration is not zero once there is one. -/
theorem conf_on (ops : List Op) (hf : Fits ops) (h : NonZeroConf ops) :
    (configured ops = true → 0 < (run ops).buf ∧ 0 < (run ops).batch) ∧
    (configured ops = false → (run ops).buf = 0) := by
  induction ops using List.reverseRecOn with
  | nil => exact ⟨by simp [configured], by simp [run, St.init]⟩
  | append_singleton ops o ih =>
    have ih := ih (fits_init hf) (fun b c hb => h b c (by simp [hb]))
    have inv := inv_run ops (fits_init hf)
    rw [run_snoc]
    cases o with
    | push m =>
      rw [configured_push]
      by_cases hc : (run ops).buf = 0 ∨ (run ops).batch = 0
      · simpa [step, St.push, hc] using ih
      · have hm : m.size ≤ (run ops).buf := by rcases hf ops m [] rfl with h1 | h1 | h1 <;> tauto
        obtain ⟨n, hn, e, _, _⟩ := push_spec _ inv m hc hm
        simpa [step, e] using ih
    | fetch f =>
      rw [configured_fetch]
      simp only [step, fetch_spec _ inv f]
      exact ih
    | config b c =>
      rw [configured_config]
      have := h b c (by simp)
      exact ⟨fun _ => this, by simp⟩

/-- The last configuration: size of the buffer and of a batch. -/
def lastConf (ops : List Op) : Nat × Nat := ops.foldl (fun x o => match o with
  | .config b c => (b, c)
  | _ => x) (0, 0)

/-- The sizes in force are those of the last configuration, and a configuration changes nothing else. -/
theorem conf_exact (ops : List Op) (hf : Fits ops) : ((run ops).buf, (run ops).batch) = lastConf ops ∧
    ∀ b c, (run (ops ++ [.config b c])).data = (run ops).data := by
  refine ⟨?_, fun b c => by rw [run_snoc]; rfl⟩
  induction ops using List.reverseRecOn with
  | nil => rfl
  | append_singleton ops o ih =>
    have ih := ih (fits_init hf)
    have inv := inv_run ops (fits_init hf)
    rw [run_snoc]
    unfold lastConf at ih ⊢
    rw [List.foldl_append, List.foldl_cons, List.foldl_nil]
    cases o with
    | push m =>
      by_cases hc : (run ops).buf = 0 ∨ (run ops).batch = 0
      · simpa [step, St.push, hc] using ih
      · have hm : m.size ≤ (run ops).buf := by rcases hf ops m [] rfl with h1 | h1 | h1 <;> tauto
        obtain ⟨n, hn, e, _, _⟩ := push_spec _ inv m hc hm
        simpa [step, e] using ih
    | fetch f =>
      simp only [step, fetch_spec _ inv f]
      exact ih
    | config b c => rfl

/-- The buffer holds the last ones of the accepted messages, in their order. -/
theorem buffer_is_tail (ops : List Op) (hf : Fits ops) (h : NonZeroConf ops) : (run ops).data <:+ accepted ops := by
  induction ops using List.reverseRecOn with
  | nil => simp [run, St.init]
  | append_singleton ops o ih =>
    have hz : NonZeroConf ops := fun b c hb => h b c (by simp [hb])
    have ih := ih (fits_init hf) hz
    have inv := inv_run ops (fits_init hf)
    have hon := conf_on ops (fits_init hf) hz
    rw [run_snoc]
    cases o with
    | push m =>
      rw [accepted_push]
      by_cases hc : (run ops).buf = 0 ∨ (run ops).batch = 0
      · have : configured ops = false := by
          by_contra hne
          have := hon.1 (by simpa using hne)
          omega
        simpa [step, St.push, hc, this] using ih
      · have hm : m.size ≤ (run ops).buf := by rcases hf ops m [] rfl with h1 | h1 | h1 <;> tauto
        obtain ⟨n, hn, e, _, _⟩ := push_spec _ inv m hc hm
        have : configured ops = true := by
          by_contra hne
          have := hon.2 (by simpa using hne)
          omega
        simp only [step, e, this, if_true]
        obtain ⟨t, ht⟩ := (List.drop_suffix n (run ops).data).trans ih
        exact ⟨t, by rw [← List.append_assoc, ht]⟩
    | fetch f =>
      rw [accepted_fetch]
      simp only [step, fetch_spec _ inv f]
      cases f
      · simpa using ih
      · simpa using (List.drop_suffix _ _).trans ih
    | config b c => rw [accepted_config]; exact ih

/-- After a push the messages fit the configured buffer. -/
theorem buffer_bounded (ops : List Op) (m : Msg) (hf : Fits (ops ++ [.push m])) (hb : 0 < (run ops).buf) (hc : 0 < (run ops).batch) :
    total (run (ops ++ [.push m])).data ≤ (run ops).buf := by
  have hm : m.size ≤ (run ops).buf := by rcases hf ops m [] rfl with h1 | h1 | h1 <;> omega
  obtain ⟨n, hn, e, h1, _⟩ := push_spec _ (inv_run ops (fits_init hf)) m (by omega) hm
  rw [run_snoc]
  simp only [step, e]
  rw [total_append, total_cons, total_nil]
  omega

/-- A push takes its message, and drops as few of the oldest messages as makes room for it. -/
theorem push_evicts_least (ops : List Op) (m : Msg) (hf : Fits (ops ++ [.push m])) (hb : 0 < (run ops).buf) (hc : 0 < (run ops).batch) :
    ∃ n, (run (ops ++ [.push m])).data = (run ops).data.drop n ++ [m] ∧
      ∀ k, k < n → total ((run ops).data.drop k) + m.size > (run ops).buf := by
  have hm : m.size ≤ (run ops).buf := by rcases hf ops m [] rfl with h1 | h1 | h1 <;> omega
  obtain ⟨n, hn, e, _, h1⟩ := push_spec _ (inv_run ops (fits_init hf)) m (by omega) hm
  rw [run_snoc]
  simp only [step, e]
  exact ⟨n, rfl, h1⟩

/-- What a fetch returns is the longest front part of what is buffered that fits a batch. -/
theorem fetch_longest (ops : List Op) (hf : Fits ops) (f : Bool) :
    fetched ops f <+: (run (ops ++ [.fetch f])).data ∧ total (fetched ops f) ≤ (run ops).batch ∧
      ∀ p, p <+: (run (ops ++ [.fetch f])).data → total p ≤ (run ops).batch → p <+: fetched ops f := by
  rw [run_snoc]
  unfold fetched
  simp only [step, fetch_spec _ (inv_run ops hf) f]
  refine ⟨takeFit_prefix _ _ _, ?_, fun p hp h => takeFit_all _ _ _ _ hp (by omega)⟩
  have := takeFit_fits (run ops).batch 0 (if f then (run ops).data.drop (run ops).offset else (run ops).data) (by omega)
  omega

/-- A fetch that may repeat removes nothing. -/
theorem repeat_keeps (ops : List Op) (hf : Fits ops) : (run (ops ++ [.fetch false])).data = (run ops).data := by
  rw [run_snoc]
  simp [step, fetch_spec _ (inv_run ops hf)]

/-- Calls that are no fetch. -/
def NoFetch (ops : List Op) : Prop := ∀ o ∈ ops, ∀ f, o ≠ .fetch f

theorem fits_left {a b : List Op} (h : Fits (a ++ b)) : Fits a := by
  intro x m y e
  exact h x m (y ++ b) (by rw [e]; simp)

theorem nz_left {a b : List Op} (h : NonZeroConf (a ++ b)) : NonZeroConf a := fun x y hx => h x y (by simp [hx])

/-- A push that is taken is accepted, one that is ignored is not. -/
theorem accepted_on (ops : List Op) (m : Msg) (hf : Fits ops) (h : NonZeroConf ops) :
    accepted (ops ++ [.push m]) = if (run ops).buf = 0 ∨ (run ops).batch = 0 then accepted ops else accepted ops ++ [m] := by
  have hon := conf_on ops hf h
  rw [accepted_push]
  cases hc : configured ops
  · have := hon.2 hc
    simp [this]
  · have := hon.1 hc
    have hne : ¬ ((run ops).buf = 0 ∨ (run ops).batch = 0) := by omega
    simp [hne]

/-- Since the last fetch the buffer lost a front part of what that returned or all of it and more, and gained at the end. -/
theorem since_fetch (a : List Op) (f : Bool) (c : List Op) (hc : NoFetch c) (hf : Fits (a ++ [.fetch f] ++ c))
    (hz : NonZeroConf (a ++ [.fetch f] ++ c)) :
    ∃ n ext, (run (a ++ [.fetch f] ++ c)).data = (run (a ++ [.fetch f])).data.drop n ++ ext ∧ n ≤ (run (a ++ [.fetch f])).data.length ∧
      (run (a ++ [.fetch f] ++ c)).offset = (fetched a f).length - n ∧
      List.Sublist ((run (a ++ [.fetch f])).data ++ ext) (accepted (a ++ [.fetch f] ++ c)) := by
  induction c using List.reverseRecOn with
  | nil =>
    rw [List.append_nil] at hf hz ⊢
    refine ⟨0, [], by simp, by simp, ?_, by simpa using (buffer_is_tail _ hf hz).sublist⟩
    rw [run_snoc]
    unfold fetched
    simp only [step, fetch_spec _ (inv_run a (fits_left hf)) f]
    simp
  | append_singleton c o ih =>
    rw [← List.append_assoc] at hf hz ⊢
    have inv := inv_run _ (fits_init hf)
    obtain ⟨n, ext, h1, h2, h3, h4⟩ := ih (fun o ho => hc o (by simp [ho])) (fits_init hf) (nz_left hz)
    rw [run_snoc]
    cases o with
    | fetch g => exact absurd rfl (hc (.fetch g) (by simp) g)
    | config b c => exact ⟨n, ext, h1, h2, h3, by rw [accepted_config]; exact h4⟩
    | push m =>
      rw [accepted_on _ _ (fits_init hf) (nz_left hz)]
      have hfm := hf (a ++ [.fetch f] ++ c) m [] rfl
      generalize run (a ++ [.fetch f] ++ c) = s at *
      by_cases hcz : s.buf = 0 ∨ s.batch = 0
      · rw [if_pos hcz]
        exact ⟨n, ext, by simpa [step, St.push, hcz] using h1, h2, by simpa [step, St.push, hcz] using h3, h4⟩
      · rw [if_neg hcz]
        have hm : m.size ≤ s.buf := by rcases hfm with h1 | h1 | h1 <;> tauto
        obtain ⟨k, hk, e, _, _⟩ := push_spec _ inv m hcz hm
        simp only [step, e, h1, h3]
        by_cases hle : n + k ≤ (run (a ++ [.fetch f])).data.length
        · refine ⟨n + k, ext ++ [m], ?_, hle, by omega, ?_⟩
          · rw [List.drop_append_of_le_length (by rw [List.length_drop]; omega), List.drop_drop, List.append_assoc]
          · rw [← List.append_assoc]; exact h4.append (List.Sublist.refl _)
        · have hlen : (fetched a f).length ≤ (run (a ++ [.fetch f])).data.length :=
            ((fetch_longest a (fits_left (by simpa using hf)) f).1).length_le
          refine ⟨(run (a ++ [.fetch f])).data.length, ext.drop (k - ((run (a ++ [.fetch f])).data.length - n)) ++ [m], ?_, Nat.le_refl _, by omega, ?_⟩
          · rw [List.drop_append, List.drop_eq_nil_of_le (by rw [List.length_drop]; omega)]
            simp
          · rw [← List.append_assoc]
            exact (((List.Sublist.refl _).append (List.drop_sublist _ _)).trans h4).append (List.Sublist.refl _)

theorem accepted_mono (a d : List Op) : accepted a <+: accepted (a ++ d) := by
  induction d using List.reverseRecOn with
  | nil => simp
  | append_singleton d o ih =>
    rw [← List.append_assoc]
    cases o with
    | push m =>
      rw [accepted_push]
      split
      · exact ih.trans (List.prefix_append _ _)
      · exact ih
    | fetch f => rw [accepted_fetch]; exact ih
    | config b c => rw [accepted_config]; exact ih

/-- A message that left the buffer does not come back. -/
theorem gone_for_good (a d : List Op) (hf : Fits (a ++ d)) (hz : NonZeroConf (a ++ d)) (hn : (accepted (a ++ d)).Nodup) (m : Msg)
    (hm : m ∈ accepted a) (hg : m ∉ (run a).data) : m ∉ (run (a ++ d)).data := by
  induction d using List.reverseRecOn with
  | nil => simpa using hg
  | append_singleton d o ih =>
    rw [← List.append_assoc] at hf hz hn ⊢
    have inv := inv_run _ (fits_init hf)
    have ih := ih (fits_init hf) (nz_left hz) (hn.sublist (accepted_mono (a ++ d) [o]).sublist)
    have hma : m ∈ accepted (a ++ d) := (accepted_mono a d).subset hm
    have hacc : ∀ x, o = .push x → _ := fun x _ => accepted_on (a ++ d) x (fits_init hf) (nz_left hz)
    have hfx : ∀ x, o = .push x → _ := fun x (e : o = .push x) => hf (a ++ d) x [] (by rw [e])
    rw [run_snoc]
    generalize run (a ++ d) = s at *
    cases o with
    | config b c => exact ih
    | fetch f =>
      simp only [step, fetch_spec _ inv f]
      cases f
      · simpa using ih
      · simp only [if_true]
        exact fun h => ih ((List.drop_sublist _ _).subset h)
    | push x =>
      rw [hacc x rfl] at hn
      have hfx := hfx x rfl
      by_cases hcz : s.buf = 0 ∨ s.batch = 0
      · simpa [step, St.push, hcz] using ih
      · rw [if_neg hcz] at hn
        have hm : x.size ≤ s.buf := by rcases hfx with h1 | h1 | h1 <;> tauto
        obtain ⟨k, hk, e, _, _⟩ := push_spec _ inv x hcz hm
        simp only [step, e, List.mem_append, List.mem_singleton]
        rintro (h | h)
        · exact ih ((List.drop_sublist _ _).subset h)
        · rw [List.nodup_append] at hn
          exact hn.2.2 m hma x (by simp) h

/-- What is fetched was in the buffer. -/
theorem fetched_subset (ops : List Op) (hf : Fits ops) (f : Bool) : fetched ops f ⊆ (run ops).data := by
  unfold fetched
  rw [fetch_spec _ (inv_run ops hf) f]
  intro m h
  have := (takeFit_prefix _ _ _).subset h
  cases f
  · simpa using this
  · exact (List.drop_sublist _ _).subset (by simpa using this)

/-- A fetch of fresh messages has none of those the last fetch returned, and neither has any later fetch. -/
theorem confirmed_is_gone (a : List Op) (f : Bool) (c : List Op) (hc : NoFetch c) (d : List Op) (g : Bool)
    (hf : Fits (a ++ [.fetch f] ++ c ++ [.fetch true] ++ d)) (hz : NonZeroConf (a ++ [.fetch f] ++ c ++ [.fetch true] ++ d))
    (hn : (accepted (a ++ [.fetch f] ++ c ++ [.fetch true] ++ d)).Nodup) (m : Msg) (hm : m ∈ fetched a f) :
    m ∉ fetched (a ++ [.fetch f] ++ c) true ∧ m ∉ fetched (a ++ [.fetch f] ++ c ++ [.fetch true] ++ d) g := by
  have hf1 := fits_left hf
  have hf2 := fits_left hf1
  obtain ⟨n, ext, h1, h2, h3, h4⟩ := since_fetch a f c hc hf2 (nz_left (nz_left hz))
  have hn2 : (accepted (a ++ [.fetch f] ++ c)).Nodup :=
    hn.sublist (by rw [List.append_assoc (_ ++ c)]; exact (accepted_mono _ _).sublist)
  have hp := (fetch_longest a (fits_left (fits_left hf2)) f).1
  have hDm : m ∈ (run (a ++ [.fetch f])).data := hp.subset hm
  have hout : m ∉ (run (a ++ [.fetch f] ++ c ++ [.fetch true])).data := by
    rw [run_snoc]
    simp only [step, fetch_spec _ (inv_run _ hf2), if_true, h1, h3]
    intro h
    have hnd := hn2.sublist h4
    obtain ⟨t, ht⟩ := hp
    rw [← ht] at hnd h
    have hx : m ∈ (t ++ ext) := by
      rw [List.drop_append] at h
      have h5 := (List.mem_append.1 h)
      rcases h5 with h5 | h5
      · rw [List.drop_drop, List.drop_append, List.drop_eq_nil_of_le (by omega)] at h5
        exact List.mem_append_left _ ((List.drop_sublist _ _).subset (by simpa using h5))
      · exact List.mem_append_right _ ((List.drop_sublist _ _).subset h5)
    rw [List.append_assoc, List.nodup_append] at hnd
    exact hnd.2.2 m hm m hx rfl
  refine ⟨fun h => hout ((fetch_longest _ hf2 true).1.subset h), ?_⟩
  have hma : m ∈ accepted (a ++ [.fetch f] ++ c ++ [.fetch true]) := by
    rw [accepted_fetch]
    exact h4.subset (List.mem_append_left _ hDm)
  have h6 := gone_for_good _ d hf hz hn m hma hout
  exact fun h => h6 (fetched_subset _ hf g h)

/-- After a failed round a fetch that may repeat returns again all that the last fetch returned and that is still there, if
the size of a batch was not changed. -/
theorem failed_round_repeats (a : List Op) (f : Bool) (c : List Op) (hc : NoFetch c) (hcc : ∀ o ∈ c, ∀ x y, o ≠ .config x y)
    (hf : Fits (a ++ [.fetch f] ++ c)) (hz : NonZeroConf (a ++ [.fetch f] ++ c)) (hn : (accepted (a ++ [.fetch f] ++ c)).Nodup)
    (m : Msg) (hm : m ∈ fetched a f) (hk : m ∈ (run (a ++ [.fetch f] ++ c)).data) :
    m ∈ fetched (a ++ [.fetch f] ++ c) false := by
  obtain ⟨n, ext, h1, h2, h3, h4⟩ := since_fetch a f c hc hf hz
  have hfa := fits_left (fits_left hf)
  obtain ⟨hp, hs, -⟩ := fetch_longest a hfa f
  have hb : (run (a ++ [.fetch f] ++ c)).batch = (run a).batch := by
    clear h1 h2 h3 h4 hn hk
    induction c using List.reverseRecOn with
    | nil =>
      rw [List.append_nil, run_snoc]
      simp only [step, fetch_spec _ (inv_run a hfa) f]
    | append_singleton c o ih =>
      rw [← List.append_assoc] at hf hz ⊢
      have inv := inv_run _ (fits_init hf)
      have hfx : ∀ x, o = .push x → _ := fun x (e : o = .push x) => hf _ x [] (by rw [e])
      have ih := ih (fun o ho => hc o (by simp [ho])) (fun o ho => hcc o (by simp [ho])) (fits_init hf) (nz_left hz)
      rw [run_snoc]
      cases o with
      | fetch g => exact absurd rfl (hc (.fetch g) (by simp) g)
      | config x y => exact absurd rfl (hcc (.config x y) (by simp) x y)
      | push x =>
        have hfx := hfx x rfl
        generalize run (a ++ [.fetch f] ++ c) = s at *
        by_cases hcz : s.buf = 0 ∨ s.batch = 0
        · simpa [step, St.push, hcz] using ih
        · have hm : x.size ≤ s.buf := by rcases hfx with h1 | h1 | h1 <;> tauto
          obtain ⟨k, hk, e, _, _⟩ := push_spec _ inv x hcz hm
          simpa [step, e] using ih
  have hpre : (fetched a f).drop n <+: (run (a ++ [.fetch f] ++ c)).data := by
    rw [h1]
    obtain ⟨t, ht⟩ := hp
    rw [← ht, List.drop_append]
    rw [List.append_assoc]
    exact List.prefix_append _ _
  have hmn : m ∈ (fetched a f).drop n := by
    rw [h1] at hk
    obtain ⟨t, ht⟩ := hp
    have hnd := hn.sublist h4
    rw [← ht] at hnd hk
    rw [List.append_assoc, List.nodup_append] at hnd
    rw [List.drop_append] at hk
    rcases List.mem_append.1 hk with hk | hk
    · rcases List.mem_append.1 hk with hk | hk
      · exact hk
      · exact absurd rfl (hnd.2.2 m hm m (List.mem_append_left _ ((List.drop_sublist _ _).subset hk)))
    · exact absurd rfl (hnd.2.2 m hm m (List.mem_append_right _ hk))
  refine List.IsPrefix.subset ?_ hmn
  have e : fetched (a ++ [.fetch f] ++ c) false = takeFit (run (a ++ [.fetch f] ++ c)).batch 0 (run (a ++ [.fetch f] ++ c)).data := by
    unfold fetched
    rw [fetch_spec _ (inv_run _ hf) false]
    rfl
  rw [e]
  refine takeFit_all _ _ _ _ hpre ?_
  have := total_split (fetched a f) n
  omega

/-- What the next fetch of fresh messages confirms was returned. -/
theorem offset_was_fetched (ops : List Op) (hf : Fits ops) (m : Msg) (hm : m ∈ (run ops).data.take (run ops).offset) :
    ∃ a f b, ops = a ++ .fetch f :: b ∧ m ∈ fetched a f := by
  induction ops using List.reverseRecOn with
  | nil => simp [run, St.init] at hm
  | append_singleton ops o ih =>
    have inv := inv_run _ (fits_init hf)
    have ih := ih (fits_init hf)
    have lift : (∃ a f b, ops = a ++ .fetch f :: b ∧ m ∈ fetched a f) → ∃ a f b, ops ++ [o] = a ++ .fetch f :: b ∧ m ∈ fetched a f := by
      rintro ⟨a, f, b, e, h⟩
      exact ⟨a, f, b ++ [o], by rw [e]; simp, h⟩
    rw [run_snoc] at hm
    cases o with
    | config b c => exact lift (ih hm)
    | fetch f =>
      refine ⟨ops, f, [], rfl, ?_⟩
      unfold fetched
      simp only [step, fetch_spec _ inv f] at hm ⊢
      rwa [List.prefix_iff_eq_take.1 (takeFit_prefix _ _ _)]
    | push x =>
      refine lift (ih ?_)
      have hfx := hf ops x [] rfl
      generalize run ops = s at *
      by_cases hcz : s.buf = 0 ∨ s.batch = 0
      · simpa [step, St.push, hcz] using hm
      · have hx : x.size ≤ s.buf := by rcases hfx with h1 | h1 | h1 <;> tauto
        obtain ⟨k, hk, e, _, _⟩ := push_spec _ inv x hcz hx
        simp only [step, e] at hm
        have := inv.off
        rw [List.take_append_of_le_length (by rw [List.length_drop]; omega), List.take_drop] at hm
        have hm := (List.drop_sublist _ _).subset hm
        by_cases hko : k ≤ s.offset
        · rwa [Nat.add_sub_cancel' hko] at hm
        · rename_i hm0
          rw [Nat.sub_eq_zero_of_le (by omega)] at hm0
          simp at hm0

/-- Nothing is lost silently: an accepted message is in the buffer, or was returned by a fetch, or was dropped by a push for
which there was no room. -/
theorem nothing_lost (ops : List Op) (hf : Fits ops) (hz : NonZeroConf ops) (m : Msg) (hm : m ∈ accepted ops) :
    m ∈ (run ops).data ∨ (∃ a f b, ops = a ++ .fetch f :: b ∧ m ∈ fetched a f) ∨
      ∃ a x b, ops = a ++ .push x :: b ∧ m ∈ (run a).data ∧ total (run a).data + x.size > (run a).buf := by
  induction ops using List.reverseRecOn with
  | nil => simp [accepted] at hm
  | append_singleton ops o ih =>
    have inv := inv_run _ (fits_init hf)
    have ih := ih (fits_init hf) (nz_left hz)
    have lift : ((∃ a f b, ops = a ++ .fetch f :: b ∧ m ∈ fetched a f) ∨
        ∃ a x b, ops = a ++ .push x :: b ∧ m ∈ (run a).data ∧ total (run a).data + x.size > (run a).buf) →
        ((∃ a f b, ops ++ [o] = a ++ .fetch f :: b ∧ m ∈ fetched a f) ∨
        ∃ a x b, ops ++ [o] = a ++ .push x :: b ∧ m ∈ (run a).data ∧ total (run a).data + x.size > (run a).buf) := by
      rintro (⟨a, f, b, e, h⟩ | ⟨a, x, b, e, h⟩)
      · exact Or.inl ⟨a, f, b ++ [o], by rw [e]; simp, h⟩
      · exact Or.inr ⟨a, x, b ++ [o], by rw [e]; simp, h⟩
    cases o with
    | config b c =>
      rw [accepted_config] at hm
      rcases ih hm with h | h
      · exact Or.inl (by rw [run_snoc]; exact h)
      · exact Or.inr (lift h)
    | fetch f =>
      rw [accepted_fetch] at hm
      rcases ih hm with h | h
      · cases f with
        | false => exact Or.inl (by rw [repeat_keeps ops (fits_init hf)]; exact h)
        | true =>
          rw [← List.take_append_drop (run ops).offset (run ops).data, List.mem_append] at h
          rcases h with h | h
          · exact Or.inr (lift (Or.inl (offset_was_fetched ops (fits_init hf) m h)))
          · left
            rw [run_snoc]
            simp only [step, fetch_spec _ inv, if_true]
            exact h
      · exact Or.inr (lift h)
    | push x =>
      rw [accepted_on _ _ (fits_init hf) (nz_left hz)] at hm
      have hfx := hf ops x [] rfl
      by_cases hcz : (run ops).buf = 0 ∨ (run ops).batch = 0
      · rw [if_pos hcz] at hm
        rcases ih hm with h | h
        · exact Or.inl (by rw [run_snoc]; simpa [step, St.push, hcz] using h)
        · exact Or.inr (lift h)
      · rw [if_neg hcz] at hm
        have hx : x.size ≤ (run ops).buf := by rcases hfx with h1 | h1 | h1 <;> tauto
        obtain ⟨k, hk, e, _, h6⟩ := push_spec _ inv x hcz hx
        rcases List.mem_append.1 hm with hm | hm
        · rcases ih hm with h | h
          · by_cases hk0 : k = 0
            · left; rw [run_snoc]; simp only [step, e, hk0, List.drop_zero]; exact List.mem_append_left _ h
            · exact Or.inr (Or.inr ⟨ops, x, [], rfl, h, by simpa using h6 0 (by omega)⟩)
          · exact Or.inr (lift h)
        · left; rw [run_snoc]; simp only [step, e]; exact List.mem_append_right _ hm

/-- What `n` fetches of fresh messages return one after another. -/
def drained (ops : List Op) : Nat → List Msg
  | 0 => []
  | n + 1 => fetched ops true ++ drained (ops ++ [.fetch true]) n

theorem fits_fetch {ops : List Op} (h : Fits ops) (f : Bool) : Fits (ops ++ [.fetch f]) := by
  intro a m b e
  rcases List.eq_nil_or_concat b with rfl | ⟨b, w, rfl⟩
  · have := (List.append_inj' e rfl).2
    simp at this
  · have e2 : ops ++ [Op.fetch f] = (a ++ .push m :: b) ++ [w] := by rw [e]; simp
    exact h a m b (List.append_inj' e2 rfl).1

theorem drains_aux (n : Nat) : ∀ (ops : List Op), Fits ops → (∀ m ∈ (run ops).data.drop (run ops).offset, m.size ≤ (run ops).batch) →
    ((run ops).data.drop (run ops).offset).length ≤ n → drained ops n = (run ops).data.drop (run ops).offset := by
  induction n with
  | zero =>
    intro ops hf hfit hn
    simp only [drained]
    exact (List.length_eq_zero_iff.1 (by omega)).symm
  | succ n ih =>
    intro ops hf hfit hn
    have inv := inv_run _ hf
    have e : step (run ops) (.fetch true) = _ := congrArg Prod.fst (fetch_spec _ inv true)
    have ef : fetched ops true = takeFit (run ops).batch 0 ((run ops).data.drop (run ops).offset) := by
      unfold fetched; rw [fetch_spec _ inv true]; rfl
    have hd : (run (ops ++ [.fetch true])).data.drop (run (ops ++ [.fetch true])).offset
        = ((run ops).data.drop (run ops).offset).drop (fetched ops true).length := by
      rw [run_snoc, e, ef]; rfl
    have hb : (run (ops ++ [.fetch true])).batch = (run ops).batch := by rw [run_snoc, e]
    simp only [drained]
    rw [ih (ops ++ [Op.fetch true]) (fits_fetch hf true)]
    · rw [hd, ef]
      conv_rhs => rw [← List.take_append_drop (takeFit (run ops).batch 0 ((run ops).data.drop (run ops).offset)).length ((run ops).data.drop (run ops).offset)]
      congr 1
      exact List.prefix_iff_eq_take.1 (takeFit_prefix _ _ _)
    · rw [hd, hb]
      exact fun m hm => hfit m ((List.drop_sublist _ _).subset hm)
    · rw [hd, ef]
      generalize (run ops).data.drop (run ops).offset = l at *
      cases l with
      | nil => simp
      | cons m l =>
        have := hfit m (by simp)
        simp only [takeFit, Nat.zero_add, if_pos this, List.length_cons, List.drop_succ_cons, List.length_drop] at hn ⊢
        omega

/-- If nothing is pushed any more and every message fits a batch, all that was not yet returned is returned, once and in
order. -/
theorem drains (ops : List Op) (hf : Fits ops) (hfit : ∀ m ∈ (run ops).data, m.size ≤ (run ops).batch) (n : Nat)
    (hn : (run ops).data.length ≤ n) : drained ops n = (run ops).data.drop (run ops).offset :=
  drains_aux n ops hf (fun m hm => hfit m ((List.drop_sublist _ _).subset hm)) (by rw [List.length_drop]; omega)

end Tycho.InputBuffer
