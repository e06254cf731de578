.lake/
lake-manifest.json
build/
*.olean
