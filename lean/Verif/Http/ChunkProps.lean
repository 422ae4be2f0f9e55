import Verif.Http.MessageProps
/-!
# C89: chunked messages
-/
namespace Verif.Http
open Verif Verif.HttpUtil Verif.HttpUtil.Spec

/-- What follows the header is read as by the calls which come after. -/
theorem run_enter (lim : Limits) (kind : Kind) (base : Nat) (buf : Bytes) (q p : Part) (n t k : Nat) (hn : n ≠ 0) (hnb : n ≤ buf.length)
    (hg : Good { q with chunked := true }) (hparse : parse lim kind base {} buf 0 = parseChunked base q buf 0 n)
    (h : run lim kind base buf { q with chunked := true } n = (.ok, p, t, k)) : run lim kind base buf {} 0 = (.ok, p, t, k) := by
  rw [run_eq _ _ _ _ _ _ good_empty (Nat.zero_le _), hparse]
  obtain ⟨h1, h2, h3, h4⟩ := parseChunked_shift base q buf 0 n
  rw [Nat.zero_add] at h1 h2 h3 h4
  rw [run_eq _ _ _ _ _ _ hg hnb] at h
  have hp : parse lim kind base { q with chunked := true } buf n = parseChunked base { q with chunked := true } buf n 0 := by
    unfold parse
    rw [if_pos rfl]
  rw [hp] at h
  by_cases hi : (parseChunked base { q with chunked := true } buf n 0).ret = .incomplete
  · rw [h4 (by rw [h1, hi]; simp), h1, h2, Nat.zero_add, if_pos ⟨by omega, hi⟩]
    by_cases h0 : (parseChunked base { q with chunked := true } buf n 0).parsed = 0
    · rw [if_neg (by simp [h0])] at h
      have := congrArg Prod.fst h
      simp only [outOf, hi] at this
      cases this
    · rw [if_pos ⟨h0, hi⟩] at h
      exact h
  · rw [if_neg (fun hh => hi hh.2)] at h
    rw [if_neg (fun hh => hi (by rw [← h1]; exact hh.2))]
    simp only [outOf, if_neg hi] at h
    simp only [outOf, h1, h2, h3, if_neg hi]
    exact h

theorem chunkList_mem (cs : List Piece) : ∀ (pos : Nat) (buf : Bytes) (rest : Bytes), pos ≤ buf.length → buf.drop pos = cs.flatMap Piece.text ++ rest →
    ((chunkList pos cs).flatMap fun c => (buf.drop c.start).take c.length) = cs.flatMap Piece.data ∧
    (∀ c ∈ chunkList pos cs, c.start + c.length ≤ pos + (cs.flatMap Piece.text).length) ∧
    ((chunkList pos cs).map (·.length)).sum ≤ (cs.flatMap Piece.text).length := by
  induction cs with
  | nil => intro pos buf rest _ _; simp [chunkList]
  | cons c cs ih =>
    intro pos buf rest hpos hb
    have hb1 : buf.drop (pos + (c.size.length + 2)) = c.data ++ (13 :: 10 :: (cs.flatMap Piece.text ++ rest)) := by
      rw [← List.drop_drop, hb]
      have : List.flatMap Piece.text (c :: cs) ++ rest = (c.size ++ [13, 10]) ++ (c.data ++ (13 :: 10 :: (cs.flatMap Piece.text ++ rest))) := by simp [Piece.text]
      rw [this]
      exact List.drop_left' (by simp)
    have hl : buf.length = pos + ((List.flatMap Piece.text (c :: cs)).length + rest.length) := by
      have := congrArg List.length hb
      rw [List.length_drop, List.length_append] at this
      omega
    have ht : (List.flatMap Piece.text (c :: cs)).length = c.size.length + 2 + (c.data.length + 2) + (cs.flatMap Piece.text).length := by
      simp [Piece.text]; omega
    have hb2 : buf.drop (pos + c.text.length) = cs.flatMap Piece.text ++ rest := by
      rw [← List.drop_drop, hb, List.flatMap_cons, List.append_assoc]
      exact List.drop_left' rfl
    have hct : c.text.length = c.size.length + 2 + (c.data.length + 2) := by simp [Piece.text]; omega
    obtain ⟨i1, i2, i3⟩ := ih (pos + c.text.length) buf rest (by omega) hb2
    simp only [chunkList, List.flatMap_cons, List.mem_cons, forall_eq_or_imp, List.map_cons, List.sum_cons]
    refine ⟨?_, ⟨by rw [List.length_append]; omega, fun x hx => ?_⟩, by rw [List.length_append]; omega⟩
    · rw [i1, Nat.add_assoc, hb1, List.take_left' rfl]
    · have := i2 x hx
      rw [List.length_append]
      omega

theorem appendChunks_ok (buf : Bytes) (e : Nat) : ∀ (cs : List Chunk) (acc : Bytes),
    (∀ c ∈ cs, c.start + c.length ≤ e ∧ c.length ≤ lengthMax ∧ c.start + c.length ≤ buf.length) →
    appendChunks buf e cs acc = .ok (acc ++ cs.flatMap fun c => (buf.drop c.start).take c.length)
  | [], acc, _ => by simp [appendChunks]
  | c :: cs, acc, h => by
    obtain ⟨h1, h2, h3⟩ := h c (by simp)
    rw [appendChunks, if_neg (by omega), if_neg (by omega), if_neg (by omega), appendChunks_ok buf e cs _ (fun x hx => h x (by simp [hx]))]
    simp

/-- **C89.** A chunked response is received exactly, however it arrives and whatever comes after it: the body handed on is the data of the chunks. -/
theorem http_response_chunked (base : Nat) (r : Response) (h : r.Ok) (hc : Chunked r.lines) (cs : List Piece) (zero more : Bytes)
    (hcs : ∀ c ∈ cs, Digits c.size c.data.length ∧ c.data ≠ []) (hz : Digits zero 0)
    (pieces : List Bytes) (hp : pieces.flatten = r.head ++ chunkedText cs zero ++ more) (hmax : pieces.flatten.length ≤ lengthMax)
    (hbase : base + pieces.flatten.length < 2 ^ 64) :
    ∃ p, receive limits .response base {} 0 [] pieces = .message p (r.head ++ chunkedText cs zero).length ∧ r.Seen p ∧
      responseBody p (r.head ++ chunkedText cs zero) = .ok (cs.flatMap Piece.data) := by
  have hmax' := hmax
  rw [lengthMax_eq] at hmax'
  have hfl : pieces.flatten = r.head ++ (chunkedText cs zero ++ more) := by rw [hp, List.append_assoc]
  have hlen : pieces.flatten.length = r.head.length + ((chunkedText cs zero).length + more.length) := by rw [hfl]; simp
  have hct : (chunkedText cs zero).length = (cs.flatMap Piece.text).length + (zero.length + 4) := by simp [chunkedText]
  have hparse := parse_response (unlimited pieces.flatten) base r h.code h.reason h.lines (chunkedText cs zero ++ more) (by rw [← hfl]; exact hmax)
  have hch : isChunked ((find r.lines "transfer-encoding").map Line.head) = true := (isChunked_eq r.lines h.lines).2 hc.2
  rw [← hfl, afterHeader_response r h.lines, hc.1] at hparse
  simp only [hch, if_true] at hparse
  have hpos : r.head.length ≠ 0 := by simp [Response.head, Response.line]
  have hg : Good { r.ready with chunked := true } := ⟨fun _ => rfl, fun hu => by cases hu⟩
  have hdrop : pieces.flatten.drop (r.head.length + 0) = [] ++ (cs.flatMap Piece.text ++ (zero ++ 13 :: 10 :: 13 :: 10 :: more)) := by
    rw [Nat.add_zero, hfl, List.drop_left' rfl]; simp [chunkedText]
  have hrun := run_enter _ _ _ _ _ _ _ _ _ hpos (by omega) hg hparse
    (run_chunks (unlimited pieces.flatten) .response base pieces.flatten more zero hbase hz cs { r.ready with chunked := true } r.head.length 0 [] hcs hg rfl
      (.inl rfl) rfl (by omega) hdrop)
  have e1 : { r.ready with chunked := true }.chunks = [] := rfl
  have e2 : (r.head.length + 0 + ([] : Bytes).length + (chunkedText cs zero).length + 2 ^ 64 - { r.ready with chunked := true }.headerLength -
      { r.ready with chunked := true }.headroom) % 2 ^ 64 = (chunkedText cs zero).length := by
    have : { r.ready with chunked := true }.headroom + { r.ready with chunked := true }.headerLength = r.head.length := r.top_eq
    rw [List.length_nil]
    omega
  rw [e1, e2, List.nil_append, List.length_nil, Nat.add_zero] at hrun
  generalize hpd : ({ { r.ready with chunked := true } with
        chunks := chunkList r.head.length cs ++ [⟨r.head.length + (chunkedText cs zero).length - 2, 0⟩], dataLength := (chunkedText cs zero).length } : Part) = p at hrun
  have hs : sizeOf .response (.ok, p, r.head.length + (chunkedText cs zero).length, 0) = .message p (r.head.length + (chunkedText cs zero).length) := rfl
  refine ⟨p, ?_, (r.ready_seen h.lines).of (by rw [← hpd]) (by rw [← hpd]) (by rw [← hpd]) (by rw [← hpd]), ?_⟩
  · rw [receive_of_run .response base pieces hmax _ hrun (by rw [hs, ← hpd]; exact r.limits h _ _ ⟨rfl, rfl, rfl⟩), hs, List.length_append]
  · have hbuf : (r.head ++ chunkedText cs zero).drop r.head.length = cs.flatMap Piece.text ++ (zero ++ [13, 10, 13, 10]) := by
      rw [List.drop_left' rfl]; rfl
    obtain ⟨i1, i2, i3⟩ := chunkList_mem cs r.head.length (r.head ++ chunkedText cs zero) _ (by simp) hbuf
    have hne : p.chunks ≠ [] := by rw [← hpd]; simp
    have htop : p.top = r.head.length := by rw [← hpd]; exact r.top_eq
    have hrb : responseBody p (r.head ++ chunkedText cs zero) = appendChunks (r.head ++ chunkedText cs zero) (p.top + p.dataLength) p.chunks [] := by
      unfold responseBody
      split
      · rename_i hh; exact absurd hh hne
      · rfl
    have hdl : p.dataLength = (chunkedText cs zero).length := by rw [← hpd]
    have hcks : p.chunks = chunkList r.head.length cs ++ [⟨r.head.length + (chunkedText cs zero).length - 2, 0⟩] := by rw [← hpd]
    rw [hrb, appendChunks_ok, hcks, List.flatMap_append, i1]
    · simp
    · rw [htop, hdl, hcks, lengthMax_eq]
      intro c hcm
      rcases List.mem_append.1 hcm with hcm | hcm
      · have := i2 c hcm
        rw [List.length_append]
        omega
      · rw [List.mem_singleton.1 hcm, List.length_append]
        simp only
        omega

/-- **C89** (partial). A chunked request is received to its end, however it arrives and whatever comes after it, and putting the chunks together
gives the head and the data of the chunks. -/
theorem http_request_chunked_partial (base : Nat) (r : Request) (h : r.Ok) (hc : Chunked r.lines) (cs : List Piece) (zero more : Bytes)
    (hcs : ∀ c ∈ cs, Digits c.size c.data.length ∧ c.data ≠ []) (hz : Digits zero 0)
    (pieces : List Bytes) (hp : pieces.flatten = r.head ++ chunkedText cs zero ++ more) (hmax : pieces.flatten.length ≤ lengthMax)
    (hbase : base + pieces.flatten.length < 2 ^ 64) :
    ∃ p, receive limits .request base {} 0 [] pieces = .message p (r.head ++ chunkedText cs zero).length ∧ r.Seen p ∧ p.chunked = true ∧
      p.top = r.head.length ∧
      ∃ q, chunksMerge p (r.head ++ chunkedText cs zero) = .ok (r.head ++ cs.flatMap Piece.data, q) ∧ r.Seen q ∧ q.top = r.head.length ∧
        q.dataLength = (r.head ++ cs.flatMap Piece.data).length := by
  have hmax' := hmax
  rw [lengthMax_eq] at hmax'
  have hfl : pieces.flatten = r.head ++ (chunkedText cs zero ++ more) := by rw [hp, List.append_assoc]
  have hlen : pieces.flatten.length = r.head.length + ((chunkedText cs zero).length + more.length) := by rw [hfl]; simp
  have hct : (chunkedText cs zero).length = (cs.flatMap Piece.text).length + (zero.length + 4) := by simp [chunkedText]
  have hparse := parse_request (unlimited pieces.flatten) base r h.uri h.lines (chunkedText cs zero ++ more) (by rw [← hfl]; exact hmax)
  have hch : isChunked ((find r.lines "transfer-encoding").map Line.head) = true := (isChunked_eq r.lines h.lines).2 hc.2
  rw [← hfl, afterHeader_request r h.lines, hc.1] at hparse
  simp only [hch, if_true] at hparse
  have hpos : r.head.length ≠ 0 := by simp [Request.head, Request.line]
  have hg : Good { r.ready with chunked := true } := ⟨fun _ => rfl, fun hu => by cases hu⟩
  have hdrop : pieces.flatten.drop (r.head.length + 0) = [] ++ (cs.flatMap Piece.text ++ (zero ++ 13 :: 10 :: 13 :: 10 :: more)) := by
    rw [Nat.add_zero, hfl, List.drop_left' rfl]; simp [chunkedText]
  have hrun := run_enter _ _ _ _ _ _ _ _ _ hpos (by omega) hg hparse
    (run_chunks (unlimited pieces.flatten) .request base pieces.flatten more zero hbase hz cs { r.ready with chunked := true } r.head.length 0 [] hcs hg rfl
      (.inl rfl) rfl (by omega) hdrop)
  have e1 : { r.ready with chunked := true }.chunks = [] := rfl
  rw [e1, List.nil_append, List.length_nil, Nat.add_zero, Nat.add_zero] at hrun
  generalize hpd : ({ { r.ready with chunked := true } with
        chunks := chunkList r.head.length cs ++ [⟨r.head.length + (chunkedText cs zero).length - 2, 0⟩],
        dataLength := (r.head.length + (chunkedText cs zero).length + 2 ^ 64 - { r.ready with chunked := true }.headerLength -
          { r.ready with chunked := true }.headroom) % 2 ^ 64 } : Part) = p at hrun
  have hv := validate_request r h p (by rw [← hpd]; rfl) (by rw [← hpd]; rfl)
  have hs : sizeOf .request (.ok, p, r.head.length + (chunkedText cs zero).length, 0) = .message p (r.head.length + (chunkedText cs zero).length) := by
    simp only [sizeOf, hv]
  have hseen : r.Seen p := (r.ready_seen h.lines).of (by rw [← hpd]) (by rw [← hpd]) (by rw [← hpd]) (by rw [← hpd]) (by rw [← hpd]) (by rw [← hpd]) (by rw [← hpd])
  have htop : p.top = r.head.length := by rw [← hpd]; exact r.top_eq
  refine ⟨p, ?_, hseen, by rw [← hpd], htop, ?_⟩
  · rw [receive_of_run .request base pieces hmax _ hrun (by rw [hs, ← hpd]; exact r.limits h _ _ ⟨rfl, rfl, rfl⟩), hs, List.length_append]
  · have hbuf : (r.head ++ chunkedText cs zero).drop r.head.length = cs.flatMap Piece.text ++ (zero ++ [13, 10, 13, 10]) := by
      rw [List.drop_left' rfl]; rfl
    obtain ⟨i1, i2, i3⟩ := chunkList_mem cs r.head.length (r.head ++ chunkedText cs zero) _ (by simp) hbuf
    have hcks : p.chunks = chunkList r.head.length cs ++ [⟨r.head.length + (chunkedText cs zero).length - 2, 0⟩] := by rw [← hpd]
    refine ⟨{ p with chunked := false, chunks := [], dataLength := (r.head ++ cs.flatMap Piece.data).length }, ?_,
      hseen.of rfl rfl rfl rfl rfl rfl rfl, htop, rfl⟩
    unfold chunksMerge
    rw [if_neg, if_neg]
    · have hd : (r.head ++ chunkedText cs zero).take p.top ++ (p.chunks.flatMap fun c => ((r.head ++ chunkedText cs zero).drop c.start).take c.length) =
          r.head ++ cs.flatMap Piece.data := by
        rw [htop, hcks, List.flatMap_append, i1, List.take_left' rfl]
        simp
      simp only [hd]
    · rintro (hh | hh)
      · rw [htop, List.length_append] at hh; omega
      · rw [List.any_eq_true] at hh
        obtain ⟨c, hcm, hcl⟩ := hh
        rw [decide_eq_true_eq] at hcl
        rw [hcks] at hcm
        rw [List.length_append] at hcl
        rcases List.mem_append.1 hcm with hcm | hcm
        · have := i2 c hcm
          omega
        · rw [List.mem_singleton.1 hcm] at hcl
          simp only at hcl
          omega
    · rw [htop, hcks]
      simp only [List.map_append, List.sum_append, List.map_cons, List.map_nil, List.sum_cons, List.sum_nil]
      omega

/-- **C89** does not hold for requests: the body handed on does not lie within the data, for any chunked request. The length of the body is set to
that of the body and the head together. -/
theorem http_request_chunked_overread (base : Nat) (r : Request) (h : r.Ok) (hc : Chunked r.lines) (cs : List Piece) (zero more : Bytes)
    (hcs : ∀ c ∈ cs, Digits c.size c.data.length ∧ c.data ≠ []) (hz : Digits zero 0)
    (pieces : List Bytes) (hp : pieces.flatten = r.head ++ chunkedText cs zero ++ more) (hmax : pieces.flatten.length ≤ lengthMax)
    (hbase : base + pieces.flatten.length < 2 ^ 64) :
    ∃ p, receive limits .request base {} 0 [] pieces = .message p (r.head ++ chunkedText cs zero).length ∧
      receivedBody p (r.head ++ chunkedText cs zero) = .fault := by
  obtain ⟨p, h1, -, h3, -, q, h5, -, h7, h8⟩ := http_request_chunked_partial base r h hc cs zero more hcs hz pieces hp hmax hbase
  refine ⟨p, h1, ?_⟩
  have hpos : 0 < r.head.length := by simp only [Request.head, Request.line, List.length_append, List.length_cons]; omega
  unfold receivedBody
  rw [if_pos h3, h5]
  simp only [body]
  rw [if_pos (by omega)]

end Verif.Http
