import Verif.Redirect.Spec
import Verif.HttpUtil.Props

/-!
# Redirects and endpoints of HTTP (C149)
-/
namespace Verif.Redirect
open Verif Verif.HttpUtil Verif.HttpUtil.Spec Verif.Uri Verif.Uri.Spec Verif.Redirect.Spec

/-! ## Helpers -/

theorem same_colon : ∀ c : UInt8, SameLetter c 58 → c = 58 := all256 (by unfold SameLetter; decide +kernel)

theorem colon_needed (l : Bytes) (h : 58 ∉ l) : strcasestr l separator = .err := by
  rcases (strcasestr_partial l separator (by decide)).1 with h' | ⟨p, n, h', hc⟩
  · exact h'
  · exfalso
    have key := same_colon
    have hpos : ∀ m, 0 < m → m ≤ 3 → OccursAt l (separator.take m) p → False := by
      intro m hm hm3 ho
      have h0 := ho.2 0 (by simp [separator]; omega)
      have hsep : (separator.take m).getD 0 0 = 58 := by
        cases m with
        | zero => omega
        | succ k => simp [separator]
      rw [hsep, Nat.add_zero] at h0
      have hlen : p < l.length := by have := ho.1; simp [separator] at this; omega
      have := key _ h0
      have hg : l.getD p 0 = l[p] := by simp [List.getD, hlen]
      rw [hg] at this
      exact h (this ▸ List.getElem_mem hlen)
    rcases hc with ⟨_, ho⟩ | ⟨hn, h0, _, ho⟩
    · exact hpos 3 (by decide) (by decide) (by simpa [separator] using ho)
    · exact hpos n h0 (by simp [separator] at hn; omega) ho

/-- A location with no colon, and which does not begin with two slashes, has no server in it. -/
theorem parse_local (next : UInt8) (l : Bytes) (h : 58 ∉ l) (hs : ¬ (l.head? = some 47 ∧ (l.drop 1).head? = some 47)) (hv : ∀ c ∈ l, endpointChar c = true ∧ validChar c = true) :
    parse next l = .ok { endpoint := l } := by
  have hsep : splitSeparator l = .ok (none, l) := by unfold splitSeparator; rw [colon_needed l h]
  have hsplit : splitProtocol l = .ok (none, l) := by
    unfold splitProtocol
    rcases search_total l slashes (by decide) with h' | ⟨q, n, h'⟩
    · rw [h']; exact hsep
    · rw [h']
      simp only
      rw [if_neg]
      · exact hsep
      · rintro rfl
        have ho := (slashes_found l n h').2
        apply hs
        rw [ho]
        exact ⟨rfl, rfl⟩
  unfold parse
  rw [if_neg (by rw [List.all_eq_true.mpr fun c hc => (hv c hc).2]; decide), hsplit]
  simp only
  rw [if_pos (List.all_eq_true.mpr fun c hc => (hv c hc).1)]

theorem take_none (l : Bytes) : 47 ∉ l.takeWhile (· != 47) := by
  induction l with
  | nil => simp
  | cons c r ih =>
    by_cases h : c = 47
    · simp [h]
    · rw [List.takeWhile_cons, if_pos (by simpa using h)]
      simp only [List.mem_cons, not_or]
      exact ⟨fun h' => h h'.symm, ih⟩

theorem drop_none (l : Bytes) (h : 47 ∉ l) : l.dropWhile (· != 47) = [] := by
  induction l with
  | nil => rfl
  | cons c r ih =>
    simp only [List.mem_cons, not_or] at h
    rw [List.dropWhile_cons, if_pos (by simpa using fun h' => h.1 h'.symm)]
    exact ih h.2

theorem drop_some (l : Bytes) (h : 47 ∈ l) : ∃ r, l.dropWhile (· != 47) = 47 :: r := by
  induction l with
  | nil => cases h
  | cons c r ih =>
    by_cases hc : c = 47
    · exact ⟨r, by rw [List.dropWhile_cons, hc]; rfl⟩
    · rw [List.dropWhile_cons, if_pos (by simpa using hc)]
      refine ih ?_
      rcases List.mem_cons.mp h with h | h
      · exact absurd h.symm hc
      · exact h

theorem directory_split (e : Bytes) : ∃ last, e = directory e ++ last ∧ 47 ∉ last := by
  refine ⟨(e.reverse.takeWhile (· != 47)).reverse, ?_, ?_⟩
  · unfold directory
    rw [← List.reverse_append, List.takeWhile_append_dropWhile, List.reverse_reverse]
  · intro hm
    rw [List.mem_reverse] at hm
    exact take_none _ hm

theorem directory_last (e : Bytes) (h : 47 ∈ e) : (directory e).getLast? = some 47 := by
  unfold directory
  obtain ⟨r, hr⟩ := drop_some e.reverse (by simpa using h)
  rw [hr]
  simp

theorem directory_none (e : Bytes) (h : 47 ∉ e) : directory e = [] := by
  unfold directory
  rw [drop_none _ (by simpa using h)]
  rfl

theorem locate_rooted (next : UInt8) (cur l : Bytes) (h : Rooted l) : locate next cur l = .ok { endpoint := l } := by
  unfold locate
  rw [parse_local next l h.2.2.1 (fun h' => h.2.1 h'.2) h.2.2.2]
  simp only
  rw [if_neg (by simpa using h.1)]

theorem prepend_directory (cur l : Bytes) (hc : 47 ∈ cur) (h : l.head? ≠ some 47) : prepend (directory cur) l = .ok (directory cur ++ l) := by
  unfold prepend
  rw [directory_last cur hc]
  simp only [if_true]
  rw [if_neg h]

theorem locate_local (next : UInt8) (cur l : Bytes) (hc : 47 ∈ cur) (h : l.head? ≠ some 47) (h58 : 58 ∉ l) (hv : ∀ c ∈ l, endpointChar c = true ∧ validChar c = true) :
    locate next cur l = .ok { endpoint := directory cur ++ l } := by
  unfold locate
  rw [parse_local next l h58 (fun h' => h h'.1) hv]
  simp only
  rw [if_pos h, prepend_directory cur l hc h]

theorem parse_absolute (next : UInt8) (a : Absolute) (h : a.Valid) (hn : a.port = none → a.endpoint = [] → next ≠ 58) :
    parse next a.text = .ok { protocol := some (a.protocol.map toLower), host := some a.host, port := a.place.port, endpoint := a.endpoint } := by
  have := uri_parts_partial next a.protocol _ a.host a.port a.endpoint rfl (h.1.elim .inl fun h => .inr (.inl h)) h.2.1 h.2.2.1 h.2.2.2 hn
  exact this

theorem place_port (a : Absolute) (h : a.Valid) : a.place.port > 0 := by
  unfold Absolute.place
  cases hp : a.port with
  | none => simp only [Option.map_none, Option.getD_none]; split <;> decide
  | some d => exact (h.2.2.1 d hp).2.2.1

theorem locate_absolute (next : UInt8) (cur : Bytes) (a : Absolute) (h : a.Valid) (he : a.endpoint ≠ []) :
    locate next cur a.text = .ok { protocol := some (a.protocol.map toLower), host := some a.host, port := a.place.port, endpoint := a.endpoint } := by
  unfold locate
  rw [parse_absolute next a h fun _ h' => absurd h' he]
  simp only
  rw [if_neg]
  have := h.2.2.2.1
  rcases this with h' | h'
  · exact absurd h' he
  · simpa using h'

/-- Where requests go after the destination was reset from a location with a server. -/
theorem target_absolute (a : Absolute) (h : a.Valid) (e : Bytes) (he : e ≠ []) (d : Dest) (u : Uri)
    (hu : u = { protocol := some (a.protocol.map toLower), host := some a.host, port := a.place.port, endpoint := e }) : target {} (fromUri d u) = { a.place with endpoint := e } := by
  have hp := place_port a h
  have hp' : a.place.port ≠ 0 := by omega
  subst hu
  unfold target fromUri
  simp only [Option.getD_none, Option.getD_some, if_pos hp, if_neg hp', if_neg he, reduceCtorEq, if_false, if_true]
  have ht : (tls { protocol := some (a.protocol.map toLower), host := some a.host, port := a.place.port, endpoint := e }) = decide (a.protocol.map toLower = https) := by
    unfold tls
    rcases h.1 with h1 | h1 <;> simp only [h1] <;> decide
  rw [ht]
  rcases h.1 with h1 | h1 <;> (unfold Absolute.place; simp only [h1]; simp [http, https])

/-! ## Where redirects go -/

/-- Locations with a server and an endpoint: the next request of the module goes there, whatever is configured, whatever is in the message and wherever the
last request went. -/
theorem absolute_followed (c : Conf) (o : Over) (j : Job) (next : UInt8) (a : Absolute) (h : a.Valid) (he : a.endpoint ≠ []) (hr : 2 ≤ j.remaining) :
    ∃ j', step c o j next a.text = .ok (some j') ∧ jobTarget o j' = a.place := by
  unfold step receive
  rw [if_neg (by omega), locate_absolute next _ a h he]
  simp only
  rw [if_neg (by omega)]
  refine ⟨_, rfl, ?_⟩
  unfold jobTarget
  simp only [if_true]
  rw [target_absolute a h a.endpoint he _ _ rfl]
  unfold Absolute.place
  simp only [if_neg he]

/-- The same for the program. -/
theorem tool_absolute_followed (d : Dest) (n : Nat) (next : UInt8) (a : Absolute) (h : a.Valid) (he : a.endpoint ≠ []) (hr : 2 ≤ n) :
    ∃ d', toolStep d n next a.text = .ok (some (d', n - 1)) ∧ target {} d' = a.place := by
  unfold toolStep receive
  rw [if_neg (by omega), locate_absolute next _ a h he]
  simp only
  rw [if_neg (by omega)]
  refine ⟨_, rfl, ?_⟩
  rw [target_absolute a h a.endpoint he _ _ rfl]
  unfold Absolute.place
  simp only [if_neg he]

/-- C149 does not hold: when there is no endpoint in the location, the directory of the last request is sent to the new server, for every such location. -/
theorem directory_sent (c : Conf) (o : Over) (j : Job) (next : UInt8) (a : Absolute) (h : a.Valid) (he : a.endpoint = []) (hn : a.port = none → next ≠ 58) (hr : 2 ≤ j.remaining)
    (hs : 47 ∈ (jobTarget o j).endpoint) : ∃ j', step c o j next a.text = .ok (some j') ∧ jobTarget o j' = { a.place with endpoint := directory (jobTarget o j).endpoint } := by
  have hd : directory (jobTarget o j).endpoint ≠ [] := by
    intro h0
    have := directory_last _ hs
    rw [h0] at this
    cases this
  have hl : locate next (jobTarget o j).endpoint a.text = .ok { protocol := some (a.protocol.map toLower), host := some a.host, port := a.place.port, endpoint := directory (jobTarget o j).endpoint } := by
    unfold locate
    rw [parse_absolute next a h fun hp _ => hn hp]
    simp only
    rw [he, if_pos (by simp), prepend_directory _ _ hs (by simp)]
    simp
  unfold step receive
  rw [if_neg (by omega), hl]
  simp only
  rw [if_neg (by omega)]
  refine ⟨_, rfl, ?_⟩
  exact target_absolute a h _ hd _ _ rfl

/-- Locations without a server, given to the program: the same transport, server and port are used. -/
theorem tool_rooted (d : Dest) (n : Nat) (next : UInt8) (l : Bytes) (h : Rooted l) (hr : 2 ≤ n) :
    ∃ d', toolStep d n next l = .ok (some (d', n - 1)) ∧ target {} d' = { target {} d with endpoint := l } := by
  have hl : l ≠ [] := by rintro rfl; exact absurd h.1 (by simp)
  unfold toolStep receive
  rw [if_neg (by omega), locate_rooted next _ l h]
  simp only
  rw [if_neg (by omega)]
  refine ⟨_, rfl, ?_⟩
  unfold target fromUri
  simp [hl]

/-- Relative locations, given to the program: the same transport, server and port are used, and the endpoint is merged as in RFC 3986 when there is
no query in the last endpoint. -/
theorem tool_relative_partial (d : Dest) (n : Nat) (next : UInt8) (l : Bytes) (h : Relative l) (hr : 2 ≤ n) (hs : 47 ∈ (target {} d).endpoint) (hq : 63 ∉ (target {} d).endpoint) :
    ∃ d' e, toolStep d n next l = .ok (some (d', n - 1)) ∧ target {} d' = { target {} d with endpoint := e } ∧ Merged (target {} d).endpoint l e := by
  obtain ⟨last, h1, h2⟩ := directory_split (target {} d).endpoint
  have hlast := directory_last _ hs
  have hne : directory (target {} d).endpoint ++ l ≠ [] := by
    intro h0
    rw [(List.append_eq_nil_iff.mp h0).1] at hlast
    cases hlast
  unfold toolStep receive
  rw [if_neg (by omega), locate_local next _ l hs h.1 h.2.2.2.2.1 h.2.2.2.2.2]
  simp only
  rw [if_neg (by omega)]
  refine ⟨_, directory (target {} d).endpoint ++ l, rfl, ?_, directory (target {} d).endpoint, last, [], by rw [List.append_nil]; exact h1, hlast, h2, ?_, .inl rfl, rfl⟩
  · generalize directory (target {} d).endpoint = x at hne
    unfold target fromUri
    simp [hne]
  · rw [← h1]; exact hq

/-- Locations without a server, given to the module: server and port are those of message and configuration, not those of the last request, and a port which is
only configured is not used. -/
theorem rooted_followed (c : Conf) (o : Over) (j : Job) (next : UInt8) (l : Bytes) (h : Rooted l) (hr : 2 ≤ j.remaining) :
    ∃ j', step c o j next l = .ok (some j') ∧ jobTarget o j' = target {} { transport := c.dest.transport, server := o.server.getD c.dest.server, port := o.port.getD 0, endpoint := some l } := by
  unfold step receive
  rw [if_neg (by omega), locate_rooted next _ l h]
  simp only
  rw [if_neg (by omega)]
  refine ⟨_, rfl, ?_⟩
  unfold jobTarget fromUri fromRaw
  simp

/-- The same transport, server and port are used by the module when this is the first redirect, and the port is that of the transport or in the message. -/
theorem rooted_kept_partial (c : Conf) (o : Over) (next : UInt8) (l : Bytes) (h : Rooted l) (hr : 2 ≤ c.max) (hp : (o.port = none ∧ c.dest.port = 0) ∨ ∃ p, o.port = some p ∧ p ≠ 0) :
    ∃ j', step c o (first c) next l = .ok (some j') ∧ jobTarget o j' = { jobTarget o (first c) with endpoint := l } := by
  have hl : l ≠ [] := by rintro rfl; exact absurd h.1 (by simp)
  obtain ⟨j', h1, h2⟩ := rooted_followed c o (first c) next l h hr
  refine ⟨j', h1, ?_⟩
  rw [h2]
  unfold jobTarget first target
  rcases hp with ⟨hp, hp'⟩ | ⟨p, hp, hp'⟩
  · simp [hp, hp', hl]
  · simp [hp, hp', hl]

/-- Relative locations, given to the module: the endpoint is merged as in RFC 3986 when there is no query in the last endpoint. -/
theorem relative_partial (c : Conf) (o : Over) (j : Job) (next : UInt8) (l : Bytes) (h : Relative l) (hr : 2 ≤ j.remaining) (hs : 47 ∈ (jobTarget o j).endpoint)
    (hq : 63 ∉ (jobTarget o j).endpoint) : ∃ j', step c o j next l = .ok (some j') ∧ Merged (jobTarget o j).endpoint l (jobTarget o j').endpoint := by
  obtain ⟨last, h1, h2⟩ := directory_split (jobTarget o j).endpoint
  have hlast := directory_last _ hs
  have hne : directory (jobTarget o j).endpoint ++ l ≠ [] := by
    intro h0
    rw [(List.append_eq_nil_iff.mp h0).1] at hlast
    cases hlast
  unfold step receive
  rw [if_neg (by omega), locate_local next _ l hs h.1 h.2.2.2.2.1 h.2.2.2.2.2]
  simp only
  rw [if_neg (by omega)]
  refine ⟨_, rfl, directory (jobTarget o j).endpoint, last, [], by rw [List.append_nil]; exact h1, hlast, h2, ?_, .inl rfl, ?_⟩
  · rw [← h1]; exact hq
  · generalize directory (jobTarget o j).endpoint = x at hne
    unfold jobTarget target fromUri
    simp [hne]

/-- Relative locations read outside of memory when there is no slash in the endpoint of the last request. -/
theorem relative_fault (c : Conf) (o : Over) (j : Job) (next : UInt8) (l : Bytes) (h : Relative l) (hr : 1 ≤ j.remaining) (hs : 47 ∉ (jobTarget o j).endpoint) :
    step c o j next l = .fault := by
  have hl : locate next (jobTarget o j).endpoint l = .fault := by
    unfold locate
    rw [parse_local next l h.2.2.2.2.1 (fun h' => h.1 h'.1) h.2.2.2.2.2]
    simp only
    rw [if_pos h.1, directory_none _ hs]
    rfl
  unfold step receive
  rw [if_neg (by omega), hl]

/-! ## How many redirects are followed -/

theorem step_remaining (c : Conf) (o : Over) (j j' : Job) (next : UInt8) (l : Bytes) (h : step c o j next l = .ok (some j')) :
    2 ≤ j.remaining ∧ j'.isRedirect = true ∧ j'.remaining = if j.isRedirect then j.remaining - 1 else c.max := by
  unfold step receive at h
  by_cases h0 : j.remaining = 0
  · rw [if_pos h0] at h; cases h
  · rw [if_neg h0] at h
    cases hl : locate next (jobTarget o j).endpoint l with
    | err => rw [hl] at h; cases h
    | bug => rw [hl] at h; cases h
    | fault => rw [hl] at h; cases h
    | ok u =>
      rw [hl] at h
      simp only at h
      by_cases h1 : j.remaining - 1 = 0
      · rw [if_pos h1] at h; cases h
      · rw [if_neg h1] at h
        cases h
        exact ⟨by omega, rfl, rfl⟩

theorem followed_redirect (c : Conf) (o : Over) (ls : List (UInt8 × Bytes)) : ∀ j : Job, j.isRedirect = true → followed c o j ls ≤ j.remaining - 1 := by
  induction ls with
  | nil => intro j _; exact Nat.zero_le _
  | cons x r ih =>
    intro j hj
    obtain ⟨n, l⟩ := x
    unfold followed
    cases hs : step c o j n l with
    | err => exact Nat.zero_le _
    | bug => exact Nat.zero_le _
    | fault => exact Nat.zero_le _
    | ok q =>
      cases q with
      | none => exact Nat.zero_le _
      | some j' =>
        simp only
        obtain ⟨h1, h2, h3⟩ := step_remaining c o j j' n l hs
        have := ih j' h2
        rw [h3, hj, if_pos rfl] at this
        omega

/-- For a single message, the module never follows more redirects than configured, whatever the server answers. -/
theorem redirects_bounded (c : Conf) (o : Over) (ls : List (UInt8 × Bytes)) : followed c o (first c) ls ≤ c.max := by
  cases ls with
  | nil => exact Nat.zero_le _
  | cons x r =>
    obtain ⟨n, l⟩ := x
    unfold followed
    cases hs : step c o (first c) n l with
    | err => exact Nat.zero_le _
    | bug => exact Nat.zero_le _
    | fault => exact Nat.zero_le _
    | ok q =>
      cases q with
      | none => exact Nat.zero_le _
      | some j' =>
        simp only
        obtain ⟨h1, h2, h3⟩ := step_remaining c o _ j' n l hs
        have := followed_redirect c o r j' h2
        rw [h3] at this
        simp only [first, Bool.false_eq_true, if_false] at h1 this
        omega

theorem followed_all (c : Conf) (o : Over) (ls : List (UInt8 × Absolute)) (h : ∀ x ∈ ls, x.2.Valid ∧ x.2.endpoint ≠ []) :
    ∀ j : Job, j.isRedirect = true → followed c o j (ls.map fun x => (x.1, x.2.text)) = min ls.length (j.remaining - 1) := by
  induction ls with
  | nil => intro j _; simp [followed]
  | cons x r ih =>
    intro j hj
    obtain ⟨hv, he⟩ := h x (by simp)
    rw [List.map_cons]
    unfold followed
    by_cases hr : 2 ≤ j.remaining
    · obtain ⟨j', h1, _⟩ := absolute_followed c o j x.1 x.2 hv he hr
      simp only [h1]
      obtain ⟨_, h2, h3⟩ := step_remaining c o j j' _ _ h1
      rw [ih (fun y hy => h y (by simp [hy])) j' h2, h3, hj, if_pos rfl]
      simp only [List.length_cons]
      omega
    · have : ∀ j', step c o j x.1 x.2.text ≠ .ok (some j') := fun j' h' => hr (step_remaining c o j j' _ _ h').1
      cases hs : step c o j x.1 x.2.text with
      | ok q => cases q with
        | none => simp only; omega
        | some j' => exact absurd hs (this j')
      | err => simp only; omega
      | bug => simp only; omega
      | fault => simp only; omega

/-- As many redirects as configured are followed by the module, if the configured number is not 1. -/
theorem redirects_allowed_partial (c : Conf) (o : Over) (ls : List (UInt8 × Absolute)) (h : ∀ x ∈ ls, x.2.Valid ∧ x.2.endpoint ≠ []) (h1 : c.max ≠ 1) :
    followed c o (first c) (ls.map fun x => (x.1, x.2.text)) = min ls.length c.max := by
  cases ls with
  | nil => simp [followed]
  | cons x r =>
    obtain ⟨hv, he⟩ := h x (by simp)
    by_cases h0 : c.max = 0
    · rw [h0, Nat.min_zero]
      have := redirects_bounded c o ((x :: r).map fun x => (x.1, x.2.text))
      omega
    · rw [List.map_cons]
      unfold followed
      obtain ⟨j', hs, _⟩ := absolute_followed c o (first c) x.1 x.2 hv he (by simp only [first]; omega)
      simp only [hs]
      obtain ⟨_, h2, h3⟩ := step_remaining c o _ j' _ _ hs
      rw [followed_all c o r (fun y hy => h y (by simp [hy])) j' h2, h3]
      simp only [first, Bool.false_eq_true, if_false, List.length_cons]
      omega

/-- C149 does not hold: with one redirect configured, none is followed. -/
theorem single_redirect_refused (c : Conf) (o : Over) (ls : List (UInt8 × Bytes)) (h : c.max = 1) : followed c o (first c) ls = 0 := by
  cases ls with
  | nil => rfl
  | cons x r =>
    obtain ⟨n, l⟩ := x
    unfold followed
    cases hs : step c o (first c) n l with
    | err => rfl
    | bug => rfl
    | fault => rfl
    | ok q =>
      cases q with
      | none => rfl
      | some j' =>
        have := (step_remaining c o _ j' n l hs).1
        simp only [first] at this
        omega

/-- The program follows at most one redirect less than it begins with, whatever the server answers. -/
theorem tool_redirects_bounded (ls : List (UInt8 × Bytes)) : ∀ (d : Dest) (n : Nat), toolFollowed d n ls ≤ n - 1 := by
  induction ls with
  | nil => intro d n; exact Nat.zero_le _
  | cons x r ih =>
    intro d n
    obtain ⟨y, l⟩ := x
    unfold toolFollowed toolStep receive
    by_cases h0 : n = 0
    · rw [if_pos h0]; exact Nat.zero_le _
    · rw [if_neg h0]
      cases hl : locate y (target {} d).endpoint l with
      | err => exact Nat.zero_le _
      | bug => exact Nat.zero_le _
      | fault => exact Nat.zero_le _
      | ok u =>
        simp only
        by_cases h1 : n - 1 = 0
        · rw [if_pos h1]; exact Nat.zero_le _
        · rw [if_neg h1]
          simp only
          have := ih (fromUri d u) (n - 1)
          omega

/-- Redirects which are waiting: without error, all which are not older than 5 seconds are tried in order, and those which are busy wait further, in order. -/
theorem waiting_tried (callback : Nat → Res) (ps : List Pending) (h : (iterate callback ps).2.2 = .ok) :
    (iterate callback ps).1 = (ps.filter fun p => p.age ≤ 5000000).map Pending.id ∧
    (iterate callback ps).2.1 = ps.filter fun p => p.age ≤ 5000000 && callback p.id = .busy := by
  induction ps with
  | nil => exact ⟨rfl, rfl⟩
  | cons p r ih =>
    unfold iterate at h ⊢
    by_cases ha : p.age > 5000 * 1000
    · have ha' : ¬ p.age ≤ 5000000 := by omega
      rw [if_pos ha] at h ⊢
      simp only [List.filter_cons, ha', decide_false, Bool.false_and]
      exact ih h
    · have ha' : p.age ≤ 5000000 := by omega
      rw [if_neg ha] at h ⊢
      cases hc : callback p.id with
      | busy => rw [hc] at h; simp only at h ⊢; obtain ⟨h1, h2⟩ := ih h; rw [h1, h2]; simp [ha', hc]
      | ok => rw [hc] at h; simp only at h ⊢; obtain ⟨h1, h2⟩ := ih h; rw [h1, h2]; simp [ha', hc]
      | soft => rw [hc] at h; cases h
      | hard => rw [hc] at h; cases h

/-- With an error, it is returned, the redirect which caused it is not tried again, and those after it wait further. -/
theorem waiting_error (callback : Nat → Res) (ps : List Pending) (h : (iterate callback ps).2.2 ≠ .ok) :
    ∃ a p b, ps = a ++ p :: b ∧ p.age ≤ 5000000 ∧ callback p.id = (iterate callback ps).2.2 ∧ (callback p.id = .soft ∨ callback p.id = .hard) ∧
      (iterate callback ps).1 = ((a ++ [p]).filter fun p => p.age ≤ 5000000).map Pending.id ∧
      (iterate callback ps).2.1 = (a.filter fun p => p.age ≤ 5000000 && callback p.id = .busy) ++ b := by
  induction ps with
  | nil => exact absurd rfl h
  | cons p r ih =>
    unfold iterate at h ⊢
    by_cases ha : p.age > 5000 * 1000
    · have ha' : ¬ p.age ≤ 5000000 := by omega
      rw [if_pos ha] at h ⊢
      obtain ⟨a, q, b, h1, h2, h3, h4, h5, h6⟩ := ih h
      refine ⟨p :: a, q, b, by rw [h1]; rfl, h2, h3, h4, ?_, ?_⟩
      · rw [h5]; simp [ha']
      · rw [h6]; simp [ha']
    · have ha' : p.age ≤ 5000000 := by omega
      rw [if_neg ha] at h ⊢
      cases hc : callback p.id with
      | busy =>
        rw [hc] at h; simp only at h ⊢
        obtain ⟨a, q, b, h1, h2, h3, h4, h5, h6⟩ := ih h
        refine ⟨p :: a, q, b, by rw [h1]; rfl, h2, h3, h4, ?_, ?_⟩
        · rw [h5]; simp [ha']
        · rw [h6]; simp [ha', hc]
      | ok =>
        rw [hc] at h; simp only at h ⊢
        obtain ⟨a, q, b, h1, h2, h3, h4, h5, h6⟩ := ih h
        refine ⟨p :: a, q, b, by rw [h1]; rfl, h2, h3, h4, ?_, ?_⟩
        · rw [h5]; simp [ha']
        · rw [h6]; simp [ha', hc]
      | soft => exact ⟨[], p, r, rfl, ha', hc, .inl hc, by simp [ha'], rfl⟩
      | hard => exact ⟨[], p, r, rfl, ha', hc, .inr hc, by simp [ha'], rfl⟩

/-! ## Endpoints -/

/-- There is exactly one slash where a prefix which is not empty and an endpoint meet. -/
theorem one_slash (pre e : Bytes) (h : pre ≠ []) : prepend pre e = .ok (withoutLast pre ++ [47] ++ withoutFirst e) := by
  unfold prepend withoutLast withoutFirst
  cases hl : pre.getLast? with
  | none => exact absurd (List.getLast?_eq_none_iff.mp hl) h
  | some c =>
    simp only [Option.some.injEq]
    have hp : c = 47 → pre = pre.dropLast ++ [47] := by
      rintro rfl
      obtain ⟨ys, hy⟩ := List.getLast?_eq_some_iff.mp hl
      rw [hy]; simp
    by_cases hc : c = 47
    · rw [if_pos hc, if_pos hc]
      cases e with
      | nil => simp; exact hp hc
      | cons a r =>
        by_cases ha : a = 47
        · subst ha; simp
        · simp [ha]
          exact (congrArg (· ++ a :: r) (hp hc)).trans (by simp)
    · rw [if_neg hc, if_neg hc]
      cases e with
      | nil => simp
      | cons a r =>
        by_cases ha : a = 47
        · subst ha; simp
        · simp [ha]

/-- What is used for topics is the endpoint up to the first question mark or number sign. -/
theorem clean_exact (path rest : Bytes) (hp : 63 ∉ path ∧ 35 ∉ path) (hr : rest = [] ∨ rest.head? = some 63 ∨ rest.head? = some 35) : clean (path ++ rest) = path := by
  induction path with
  | nil =>
    cases rest with
    | nil => rfl
    | cons c r => simp at hr; simp [clean, hr]
  | cons c p ih =>
    simp at hp
    rw [List.cons_append]
    unfold clean
    rw [if_neg (fun h => h.elim (fun h => hp.1.1 h.symm) fun h => hp.2.1 h.symm), ih ⟨hp.1.2, hp.2.2⟩]

theorem splitQuery_exact (path query : Bytes) (hp : 63 ∉ path) : splitQuery (path ++ 63 :: query) = (path, query) ∧ splitQuery path = (path, []) := by
  induction path with
  | nil => exact ⟨rfl, rfl⟩
  | cons c p ih =>
    simp at hp
    obtain ⟨h1, h2⟩ := ih hp.2
    have hc : ¬ c = 63 := fun h => hp.1 h.symm
    rw [List.cons_append]
    unfold splitQuery
    rw [if_neg hc, if_neg hc, h1, h2]
    exact ⟨rfl, rfl⟩

/-- Endpoint and query of every request are the decoded text before the first question mark and the unchanged text after it. -/
theorem split_exact (path query e : Bytes) (hp : 63 ∉ path) (he : percentDecode path = some e) : split (path ++ 63 :: query) = .ok (e, query) ∧ split path = .ok (e, []) := by
  obtain ⟨h1, h2⟩ := splitQuery_exact path query hp
  unfold split
  rw [h1, h2]
  simp only [urlDecode_rfc path e he]
  exact ⟨trivial, trivial⟩

/-- Whatever bytes an endpoint is made of, it is received as it is when it is sent encoded. -/
theorem split_roundtrip (endpoint query : Bytes) (h : 3 * endpoint.length ≤ 2 ^ 32 - 1) : ∃ t, uriEncode endpoint = .ok t ∧ split (t ++ 63 :: query) = .ok (endpoint, query) := by
  obtain ⟨t, h1, _, h2, h3, _⟩ := uri_roundtrip endpoint h
  refine ⟨t, h1, (split_exact t query endpoint ?_ h3).1⟩
  intro hm
  have := h2 63 hm
  revert this
  unfold UriSafe
  decide

/-- No request makes the program abort or read outside of memory while its endpoint is split. -/
theorem split_safe (l : Bytes) : split l = .err ∨ ∃ e q, split l = .ok (e, q) := by
  unfold split
  rcases urlDecode_total (splitQuery l).1 with h | ⟨b, h, _⟩
  · rw [h]; exact .inl rfl
  · rw [h]; exact .inr ⟨_, _, rfl⟩

/-! ## Examples and what does not hold -/

def conf : Conf := ⟨⟨.http, str "a.org", 8080, some (str "/x/y")⟩, 5⟩

example : (Absolute.mk (str "HTTPS") (str "b.org") none (str "/z")).Valid ∧ Rooted (str "/z?q") ∧ Relative (str "z/w") := by
  refine ⟨⟨by decide +kernel, by unfold HostName; decide +kernel, by simp, by unfold Endpoint; decide +kernel⟩, by unfold Rooted; decide +kernel, by unfold Relative; decide +kernel⟩

example : step conf {} (first conf) 0 (str "https://b.org/z") = .ok (some ⟨⟨.https, str "b.org", 443, some (str "/z")⟩, true, 5⟩) := by decide +kernel

/-- C149 does not hold: after a location without server, the configured port is not used. -/
theorem port_lost : ∃ j, step conf {} (first conf) 0 (str "/z") = .ok (some j) ∧ (jobTarget {} (first conf)).port = 8080 ∧ jobTarget {} j = ⟨.http, str "a.org", 80, str "/z"⟩ :=
  ⟨⟨⟨.http, str "a.org", 0, some (str "/z")⟩, true, 5⟩, by decide +kernel, by decide +kernel, by decide +kernel⟩

/-- C149 does not hold: after a redirect to another server with encryption, a location without server is looked up at the first server, without encryption. -/
theorem server_lost : ∃ j k, step conf {} (first conf) 0 (str "https://b.org/z") = .ok (some j) ∧ jobTarget {} j = ⟨.https, str "b.org", 443, str "/z"⟩ ∧
    step conf {} j 0 (str "/w") = .ok (some k) ∧ jobTarget {} k = ⟨.http, str "a.org", 80, str "/w"⟩ :=
  ⟨⟨⟨.https, str "b.org", 443, some (str "/z")⟩, true, 5⟩, ⟨⟨.http, str "a.org", 0, some (str "/w")⟩, true, 4⟩, by decide +kernel, by decide +kernel, by decide +kernel, by decide +kernel⟩

/-- C149 does not hold: slashes in the query count as part of the path. -/
theorem query_not_replaced : locate 0 (str "/a?u=x/y") (str "z") = .ok { endpoint := str "/a?u=x/z" } := by decide +kernel

/-- C149 does not hold: a location which is only a query loses the last part of the path. -/
theorem query_only : locate 0 (str "/a/b") (str "?p=2") = .ok { endpoint := str "/a/?p=2" } := by decide +kernel

/-- C149 does not hold: a location with a server but no protocol is used as an endpoint. -/
theorem server_as_endpoint : locate 0 (str "/a/b") (str "//c.org/x") = .ok { endpoint := str "/a/c.org/x" } := by decide +kernel

example : Absolute.text ⟨str "http", str "b.org", none, []⟩ = str "http://b.org" ∧ locate 0 (str "/secret/x") (str "http://b.org") = .ok ⟨some http, some (str "b.org"), 80, str "/secret/"⟩ := by decide +kernel

example : split (str "/a%20b?c=%20") = .ok (str "/a b", str "c=%20") ∧ clean (str "/a#b?c") = str "/a" ∧ prepend (str "/a/") (str "/b") = .ok (str "/a/b") := by decide +kernel

example : iterate (fun n => if n = 1 then .busy else .ok) [⟨0, 10⟩, ⟨1, 20⟩, ⟨2, 6000000⟩, ⟨3, 0⟩] = ([0, 1, 3], [⟨1, 20⟩], .ok) := by decide

/-! ## Where requests go -/

/-- **C149.** The port of a request is the one in the message, or else the configured one, or else 443 for HTTPS and QUIC and 80 for others. -/
theorem port_used (o : Over) (d : Dest) :
    (∀ p, o.port = some p → (target o d).port = p) ∧
    (o.port = none → d.port ≠ 0 → (target o d).port = d.port) ∧
    (o.port = none → d.port = 0 → d.transport = .https ∨ d.transport = .quic → (target o d).port = 443) ∧
    (o.port = none → d.port = 0 → d.transport = .http ∨ d.transport = .any → (target o d).port = 80) := by
  refine ⟨?_, ?_, ?_, ?_⟩
  · intro p h; simp [target, h]
  · intro h1 h2; simp [target, h1, h2]
  · intro h1 h2 h3; rcases h3 with h3 | h3 <;> simp [target, h1, h2, h3]
  · intro h1 h2 h3; rcases h3 with h3 | h3 <;> simp [target, h1, h2, h3]

/-- **C149.** A chosen transport is always used. When there is no choice, a request is encrypted exactly if it goes to port 443. -/
theorem transport_used (o : Over) (d : Dest) :
    (d.transport ≠ .any → (target o d).transport = d.transport) ∧
    (d.transport = .any → ((target o d).transport = .https ↔ (target o d).port = 443)) := by
  refine ⟨?_, ?_⟩
  · intro h; simp [target, h]
  · intro h; simp only [target, h, true_and]; split <;> simp_all

/-- **C149.** The endpoint of a request is the one in the message unless empty, or else the configured one unless empty, or else the root. It is never empty. -/
theorem endpoint_used (o : Over) (d : Dest) :
    (target o d).endpoint ≠ [] ∧
    (∀ e, o.endpoint = some e → e ≠ [] → (target o d).endpoint = e) ∧
    (o.endpoint = none ∨ o.endpoint = some [] → ∀ e, d.endpoint = some e → e ≠ [] → (target o d).endpoint = e) ∧
    (o.endpoint = none ∨ o.endpoint = some [] → d.endpoint = none ∨ d.endpoint = some [] → (target o d).endpoint = [47]) := by
  refine ⟨?_, ?_, ?_, ?_⟩
  · unfold target
    simp only
    generalize (if o.endpoint.getD [] = [] then d.endpoint.getD [47] else o.endpoint.getD []) = x
    by_cases hx : x = [] <;> simp [hx]
  · intro e h1 h2; simp [target, h1, h2]
  · intro h e h1 h2; rcases h with h | h <;> simp [target, h, h1, h2]
  · intro h h1; rcases h with h | h <;> rcases h1 with h1 | h1 <;> simp [target, h, h1]

example : target { port := some 443 } { transport := .any, server := [97], port := 8080, endpoint := some [] } = { transport := .https, server := [97], port := 443, endpoint := [47] } := by decide

end Verif.Redirect
