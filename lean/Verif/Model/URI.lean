import Verif.Base
/-
Model of nixd/lspserver/src/URI.cpp and the URI part of nixd/lspserver/src/Protocol.cpp, on POSIX.

The LLVM path functions are modelled from their documentation for the POSIX style: `root_name` is `//net` for
paths starting with exactly two separators and a name; `is_separator` is `/`; `native` replaces `\` by `/`;
`convert_to_slash` is the identity; `is_absolute` is "has a root directory". The scheme registry is empty
(nixd registers none), so only the `file` scheme exists.
-/
namespace Verif.URI

/-- `llvm::isAlpha`. -/
def isAlpha (c : UInt8) : Bool := (97 ≤ c && c ≤ 122) || (65 ≤ c && c ≤ 90)
/-- `llvm::isDigit`. -/
def isDigit (c : UInt8) : Bool := 48 ≤ c && c ≤ 57
/-- `llvm::isAlnum`. -/
def isAlnum (c : UInt8) : Bool := isAlpha c || isDigit c

/-- `shouldEscape` (URI.cpp:87-103). -/
def shouldEscape (c : UInt8) : Bool :=
  if (97 ≤ c && c ≤ 122) || (65 ≤ c && c ≤ 90) || (48 ≤ c && c ≤ 57) then false
  else if c == 45 || c == 95 || c == 46 || c == 126 || c == 47 || c == 58 then false
  else true

/-- `llvm::hexdigit` (upper case). -/
def hexdigit (n : UInt8) : UInt8 := if n < 10 then 48 + n else 55 + n

/-- `llvm::isHexDigit`. -/
def isHexDigit (c : UInt8) : Bool :=
  (48 ≤ c && c ≤ 57) || (97 ≤ c && c ≤ 102) || (65 ≤ c && c ≤ 70)

/-- `llvm::hexDigitValue` on hex digits. -/
def hexValue (c : UInt8) : UInt8 :=
  if 48 ≤ c && c ≤ 57 then c - 48 else if 97 ≤ c && c ≤ 102 then c - 87 else c - 55

/-- `llvm::hexFromNibbles`. -/
def hexFromNibbles (a b : UInt8) : UInt8 := hexValue a * 16 + hexValue b

/-- `percentEncode` (URI.cpp:109-118). -/
def percentEncode : Bytes → Bytes
  | [] => []
  | c :: rest =>
    if shouldEscape c then 37 :: hexdigit (c / 16) :: hexdigit (c % 16) :: percentEncode rest
    else c :: percentEncode rest

/-- `percentDecode` (URI.cpp:121-136). -/
def percentDecode : Bytes → Bytes
  | [] => []
  | c :: rest =>
    if c ≠ 37 then c :: percentDecode rest
    else match rest with
      | a :: b :: rest' =>
        if isHexDigit a && isHexDigit b then hexFromNibbles a b :: percentDecode rest'
        else c :: percentDecode (a :: b :: rest')
      | rest => c :: percentDecode rest

/-- `isValidScheme` (URI.cpp:138-146). -/
def isValidScheme : Bytes → Bool
  | [] => false
  | c :: rest => isAlpha c && rest.all fun c => isAlnum c || c == 43 || c == 46 || c == 45

/-- `lspserver::URI`. -/
structure URI where
  scheme : Bytes
  authority : Bytes
  body : Bytes
deriving DecidableEq, Repr

/-- Does the string start with `/`? -/
def startsSlash : Bytes → Bool
  | 47 :: _ => true
  | _ => false

/-- The constructor (URI.cpp:150-156); `none` is an assertion failure. -/
def mkURI (scheme authority body : Bytes) : Option URI :=
  if scheme = [] then none
  else if authority = [] ∨ startsSlash body then some ⟨scheme, authority, body⟩ else none

/-- `URI::toString` (URI.cpp:158-172). -/
def toString (u : URI) : Bytes :=
  let result := percentEncode u.scheme ++ [58]
  if u.authority = [] ∧ u.body = [] then result
  else
    let result := if u.authority ≠ [] ∨ startsSlash u.body then result ++ b!"//" ++ percentEncode u.authority
      else result
    result ++ percentEncode u.body

/-- `URI::parse` (URI.cpp:174-193); `none` is an error. `find` returning `npos` makes
`substr(0, npos)` the whole rest and `substr(npos)` empty. -/
def parse (s : Bytes) : Option URI :=
  match s.findIdx? (· == 58) with
  | none => none
  | some pos =>
    let scheme := percentDecode (s.take pos)
    if !isValidScheme scheme then none
    else
      let rest := s.drop (pos + 1)
      match rest with
      | 47 :: 47 :: rest =>
        match rest.findIdx? (· == 47) with
        | none => some ⟨scheme, percentDecode rest, percentDecode []⟩
        | some p => some ⟨scheme, percentDecode (rest.take p), percentDecode (rest.drop p)⟩
      | rest => some ⟨scheme, [], percentDecode rest⟩

/-- `isWindowsPath` (URI.cpp:21-23). -/
def isWindowsPath : Bytes → Bool
  | a :: b :: _ => isAlpha a && b == 58
  | _ => false

/-- `isNetworkPath` (URI.cpp:25-28). -/
def isNetworkPath : Bytes → Bool
  | a :: b :: _ :: _ => a == b && a == 47
  | _ => false

/-- `llvm::sys::path::root_name` on POSIX. -/
def rootName (p : Bytes) : Bytes :=
  match p with
  | 47 :: 47 :: c :: rest =>
    if c = 47 then []
    else 47 :: 47 :: (c :: rest).takeWhile (· ≠ 47)
  | _ => []

/-- `llvm::sys::path::is_absolute` on POSIX: there is a root directory (after the root name). -/
def isAbsolute (p : Bytes) : Bool := startsSlash (p.drop (rootName p).length)

/-- `llvm::sys::path::native` on POSIX. -/
def native (p : Bytes) : Bytes := p.map fun c => if c = 92 then 47 else c

/-- `FileSystemScheme::getAbsolutePath` (URI.cpp:36-54); `none` is an error. -/
def getAbsolutePath (authority body : Bytes) : Option Bytes :=
  if !startsSlash body then none
  else
    let (path, body) :=
      if authority ≠ [] then (b!"//" ++ authority, body)
      else if isWindowsPath (body.drop 1) then ([], body.drop 1)
      else ([], body)
    some (native (path ++ body))

/-- `FileSystemScheme::uriFromAbsolutePath` (URI.cpp:56-71) = `URI::createFile` (URI.cpp:235-240); `none` is
an assertion failure in the constructor. -/
def createFile (path : Bytes) : Option URI :=
  let root := rootName path
  if isNetworkPath root then mkURI b!"file" (root.drop 2) (path.drop root.length)
  else if isWindowsPath root then mkURI b!"file" [] (47 :: path)
  else mkURI b!"file" [] path

/-- `URI::resolve(const URI&)` (URI.cpp:242-248) with `findSchemeByName` (URI.cpp:74-85). -/
def resolve (u : URI) : Option Bytes :=
  if u.scheme = b!"file" then getAbsolutePath u.authority u.body else none

/-- What the server does with a URI string from a client: `fromJSON(..., URIForFile)` (Protocol.cpp:64-87). -/
def fileOfURI (s : Bytes) : Option Bytes :=
  match parse s with
  | none => none
  | some u =>
    if u.scheme ≠ b!"file" ∧ u.scheme ≠ b!"test" then none
    else resolve u

/-- What the server sends for a file: `URIForFile::uri()` (Protocol.h), `createFile(File).toString()`. -/
def uriOfFile (path : Bytes) : Option Bytes := (createFile path).map toString

end Verif.URI
