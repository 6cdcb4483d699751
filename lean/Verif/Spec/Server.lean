/-
Specification: requests that come from a page of a web site and not from the user, and what text a request carries.
-/
import Verif.Model.Server

namespace Spec
open RustBit

/-- The request has this header with this value; if it has it more than once, this is the first. -/
def Says (r : HttpRequest) (name v : Bytes) : Prop := ∃ pre post, r.headers = pre ++ (name, v) :: post ∧ ∀ e ∈ pre, e.1 ≠ name

/-- The request does not have this header. -/
def Silent (r : HttpRequest) (name : Bytes) : Prop := ∀ e ∈ r.headers, e.1 ≠ name

/-- What a page of the site `origin`, open in a browser on the user's machine, can have the browser send to any server without the server being asked
first whether it allows it (the "simple requests" of the Fetch standard): the method is one of three, the type of the content is not given or is
one of those of forms, the content is not encoded, and the browser names the site the page is from. -/
structure FromPage (origin : Bytes) (r : HttpRequest) : Prop where
  method : r.method ∈ [b!"GET", b!"HEAD", b!"POST"]
  names : Says r b!"origin" origin
  type : ∀ v, Says r b!"content-type" v →
    ∃ t ∈ [b!"text/plain", b!"application/x-www-form-urlencoded", b!"multipart/form-data"], t <+: v
  plain : Silent r b!"content-encoding"
  whole : r.chunked = false

/-- The request is to the one page there is. -/
def Aimed (r : HttpRequest) : Prop := r.method = b!"POST" ∧ r.path = b!"/add/magnet"

/-- The body of the request, decompressed and decoded as the request says, is this text. -/
def Carries (lib : Actix) (r : HttpRequest) (text : Bytes) : Prop :=
  ∃ decode b, (Silent r b!"content-type" ∧ decode = decodeUtf8 ∨ ∃ v, Says r b!"content-type" v ∧ lib.charset v = some decode) ∧
    (Silent r b!"content-encoding" ∧ b = r.body ∨ ∃ v, Says r b!"content-encoding" v ∧ lib.unpack v r.body = some b) ∧
    (r.chunked = false → r.body.length ≤ 262144) ∧ b.length ≤ 262144 ∧ decode b = some text

/-- Whatever the charset, the decoders give text: bytes in UTF-8. -/
def DecodesToText (lib : Actix) : Prop := ∀ v decode b text, lib.charset v = some decode → decode b = some text → validUtf8 text = true

end Spec
